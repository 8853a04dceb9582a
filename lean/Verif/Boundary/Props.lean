import Verif.Boundary.Model
import Verif.Enum.Props
import Verif.PolySubst.OfflineRun

/-!
# C98: boundary triangulation
-/

namespace Verif.Boundary

open Verif.Barvinok Matrix

variable {n : ℕ}

/-- The contract of NTL's `LLL`: the transformation is unimodular, and the rank is full exactly if the rows are independent. -/
def LllOk (lll : Lll n) : Prop :=
  ∀ cols, IsUnit (lll cols).1.det ∧ ((lll cols).2 = n + 1 ↔ ∀ x : Vec (n + 1), (∀ c ∈ cols, ∑ s, x s * c s = 0) → x = 0)

/-- Such functions exist. -/
theorem lllOk_exists : ∃ lll : Lll n, LllOk lll := by
  classical
  refine ⟨fun cols => (1, if ∀ x : Vec (n + 1), (∀ c ∈ cols, ∑ s, x s * c s = 0) → x = 0 then n + 1 else 0), fun cols => ⟨by simp, ?_⟩⟩
  by_cases h : ∀ x : Vec (n + 1), (∀ c ∈ cols, ∑ s, x s * c s = 0) → x = 0
  · simp only [if_pos h, true_iff]; exact h
  · simp only [if_neg h]; constructor
    · intro e; omega
    · intro e; exact absurd e h

theorem vecMul_adjugate (R : Mat (n + 1)) (w : Vec (n + 1)) (i : Fin (n + 1)) : ∑ s, w s * R.adjugate s i = (R.updateRow i w).det := by
  rw [← cramer_transpose_apply, cramer_eq_adjugate_mulVec, ← adjugate_transpose]
  simp only [mulVec, dotProduct, transpose_apply]
  exact Finset.sum_congr rfl fun s _ => mul_comm _ _

theorem withLast_update (b : Fin n → Vec (n + 1)) (x w : Vec (n + 1)) : (withLast b x).updateRow (Fin.last n) w = withLast b w := by
  funext i
  refine Fin.lastCases ?_ (fun j => ?_) i
  · rw [updateRow_self]; simp [withLast]
  · rw [updateRow_ne (Fin.castSucc_lt_last j).ne]; simp [withLast]

theorem alpha_det (b : Fin n → Vec (n + 1)) (x w : Vec (n + 1)) : ∑ s, w s * alphaColumn (withLast b x) s = (withLast b w).det := by
  simp only [alphaColumn]
  rw [vecMul_adjugate, withLast_update]

theorem comb_eq (U : Mat (n + 1)) (multi col : Vec (n + 1)) : comb U multi col = ∑ s, (multi ᵥ* U) s * col s := by
  simp only [comb, vecMul, dotProduct, Finset.sum_mul, Finset.mul_sum]
  rw [Finset.sum_comm]
  exact Finset.sum_congr rfl fun s _ => Finset.sum_congr rfl fun i _ => by ring

theorem completion_some {b : Fin n → Vec (n + 1)} {R : Mat (n + 1)} (h : completion b = some R) : ∃ x, R = withLast b x ∧ R.det ≠ 0 := by
  simp only [completion, Option.map_eq_some_iff] at h
  obtain ⟨j, hj, rfl⟩ := h
  have := List.find?_some hj
  exact ⟨_, rfl, by simpa using this⟩

theorem completion_ends {b : Fin n → Vec (n + 1)} (h : ∃ x, (withLast b x).det ≠ 0) : ∃ R, completion b = some R := by
  obtain ⟨x, hx⟩ := h
  have : ∃ j, (withLast b (Pi.single j 1)).det ≠ 0 := by
    by_contra hne
    push Not at hne
    apply hx
    rw [← alpha_det b 0 x]
    refine Finset.sum_eq_zero fun s _ => ?_
    have h1 := alpha_det b 0 (Pi.single s 1)
    rw [hne s, Finset.sum_eq_single s] at h1
    · rw [Pi.single_eq_same, one_mul] at h1; rw [h1, mul_zero]
    · intro j _ hj; rw [Pi.single_eq_of_ne hj, zero_mul]
    · simp
  obtain ⟨j, hj⟩ := this
  cases hc : completion b with
  | some R => exact ⟨R, rfl⟩
  | none =>
    simp only [completion, Option.map_eq_none_iff, List.find?_eq_none] at hc
    have := hc j (List.mem_finRange j)
    simp only [decide_eq_true_eq, not_not] at this
    exact absurd this hj

theorem completions_forall₂ : ∀ {B : List (Fin n → Vec (n + 1))} {Rs : List (Mat (n + 1))}, completions B = some Rs →
    List.Forall₂ (fun b R => ∃ x, R = withLast b x ∧ R.det ≠ 0) B Rs
  | [], Rs, h => by cases h; exact .nil
  | b :: B, Rs, h => by
    rw [completions] at h
    split at h
    · cases h
    rename_i R hR
    split at h
    · cases h
    rename_i Rs' hRs
    cases h
    exact .cons (completion_some hR) (completions_forall₂ hRs)

theorem completions_ends : ∀ (B : List (Fin n → Vec (n + 1))), (∀ b ∈ B, ∃ x, (withLast b x).det ≠ 0) → ∃ Rs, completions B = some Rs
  | [], _ => ⟨[], rfl⟩
  | b :: B, h => by
    obtain ⟨R, hR⟩ := completion_ends (h b List.mem_cons_self)
    obtain ⟨Rs, hRs⟩ := completions_ends B fun b hb => h b (List.mem_cons_of_mem _ hb)
    exact ⟨R :: Rs, by rw [completions, hR, hRs]⟩

theorem search_some {Rs : List (Mat (n + 1))} {U : Mat (n + 1)} : ∀ {fuel c : ℕ} {multi : Vec (n + 1)}, 1 ≤ c → search Rs U fuel c = some multi →
    multi ≠ 0 ∧ avoiding Rs U multi = true
  | 0, c, multi, _, h => by cases h
  | fuel + 1, c, multi, hc, h => by
    rw [search] at h
    split at h
    · rename_i m hm
      cases h
      have := List.find?_some hm
      rw [Bool.and_eq_true, List.any_eq_true] at this
      obtain ⟨⟨j, -, hj⟩, ha⟩ := this
      refine ⟨fun h0 => ?_, ha⟩
      subst h0
      simp only [Pi.zero_apply, abs_zero, decide_eq_true_eq] at hj
      omega
    · exact search_some (by omega) h

theorem avoiding_iff {Rs : List (Mat (n + 1))} {U : Mat (n + 1)} {multi : Vec (n + 1)} : avoiding Rs U multi = true ↔
    ∀ R ∈ Rs, comb U multi (alphaColumn R) ≠ 0 → ∀ l, comb U multi (fColumn R l) ≠ 0 := by
  simp only [avoiding, List.all_eq_true, Bool.or_eq_true, decide_eq_true_eq, List.mem_finRange, true_implies]
  exact forall₂_congr fun R _ => or_iff_not_imp_left

theorem comb_f (U R : Mat (n + 1)) (multi : Vec (n + 1)) (l : Fin n) : comb U multi (fColumn R l) =
    (R.updateRow (Fin.last n) (multi ᵥ* U)).det * R.adjugate (Fin.last n) l.castSucc -
      (R.updateRow l.castSucc (multi ᵥ* U)).det * R.adjugate (Fin.last n) (Fin.last n) := by
  rw [comb_eq, ← vecMul_adjugate, ← vecMul_adjugate, Finset.sum_mul, Finset.sum_mul, ← Finset.sum_sub_distrib]
  exact Finset.sum_congr rfl fun s _ => by simp only [fColumn]; ring

/-- The parts of a successful run. -/
theorem construct_found {lll : Lll n} {fuel : ℕ} {B : List (Fin n → Vec (n + 1))} {w : Vec (n + 1)} {dets : List ℤ}
    (h : construct lll fuel B = .found w dets) : ∃ Rs multi, completions B = some Rs ∧
      (lll (Rs.map alphaColumn)).2 = n + 1 ∧ search Rs (lll (Rs.map alphaColumn)).1 fuel 1 = some multi ∧
      w = multi ᵥ* (lll (Rs.map alphaColumn)).1 ∧ dets = Rs.map fun R => comb (lll (Rs.map alphaColumn)).1 multi (alphaColumn R) := by
  rw [construct] at h
  split at h
  · cases h
  rename_i Rs hRs
  dsimp only at h
  split at h
  · cases h
  rename_i hr
  split at h
  · cases h
  rename_i multi hm
  cases h
  exact ⟨Rs, multi, hRs, not_not.1 hr, hm, rfl, rfl⟩

/-- **C98.** The vector found is not zero, and the vector of determinants is what its name says: for each boundary cone the determinant of its rays followed by the new ray. -/
theorem c98_vector {lll : Lll n} (hlll : LllOk lll) {fuel : ℕ} {B : List (Fin n → Vec (n + 1))} {w : Vec (n + 1)} {dets : List ℤ}
    (h : construct lll fuel B = .found w dets) : w ≠ 0 ∧ dets = B.map fun b => (withLast b w).det := by
  obtain ⟨Rs, multi, hRs, -, hs, rfl, rfl⟩ := construct_found h
  constructor
  · intro h0
    have hU := (hlll (Rs.map alphaColumn)).1
    have := congrArg (· ᵥ* ((lll (Rs.map alphaColumn)).1)⁻¹) h0
    simp only [vecMul_vecMul, mul_nonsing_inv _ hU, vecMul_one, zero_vecMul] at this
    exact (search_some le_rfl hs).1 this
  · have := completions_forall₂ hRs
    clear hRs hs h
    generalize (lll (Rs.map alphaColumn)).1 = U
    induction this with
    | nil => rfl
    | cons hb _ ih =>
      obtain ⟨x, rfl, -⟩ := hb
      rw [List.map_cons, List.map_cons, ih, comb_eq, alpha_det]

/-- **C98.** If a completed cone is full-dimensional, no facet through the new ray has a normal vector with last coordinate zero. -/
theorem c98_avoids {lll : Lll n} {fuel : ℕ} {B : List (Fin n → Vec (n + 1))} {w : Vec (n + 1)} {dets : List ℤ}
    (h : construct lll fuel B = .found w dets) {b : Fin n → Vec (n + 1)} (hb : b ∈ B) (hdet : (withLast b w).det ≠ 0) (l : Fin n)
    (x : Vec (n + 1)) (hx : x ≠ 0) (hxb : ∀ i, i ≠ l → ∑ s, b i s * x s = 0) (hxw : ∑ s, w s * x s = 0) : x (Fin.last n) ≠ 0 := by
  obtain ⟨Rs, multi, hRs, -, hs, rfl, -⟩ := construct_found h
  generalize (lll (Rs.map alphaColumn)).1 = U at *
  obtain ⟨R, hR, y, hy, hd⟩ : ∃ R ∈ Rs, ∃ y, R = withLast b y ∧ R.det ≠ 0 := by
    have := completions_forall₂ hRs
    clear hRs hs h
    induction this with
    | nil => cases hb
    | cons hb' _ ih =>
      rcases List.mem_cons.1 hb with rfl | hb
      · exact ⟨_, List.mem_cons_self, hb'⟩
      · obtain ⟨R, hR, h⟩ := ih hb; exact ⟨R, List.mem_cons_of_mem _ hR, h⟩
  have hF := avoiding_iff.1 (search_some le_rfl hs).2 R hR (by rw [comb_eq, hy, alpha_det]; exact hdet) l
  rw [comb_f] at hF
  generalize hw : multi ᵥ* U = w at *
  intro hlast
  -- the products with the rows of the completed matrix
  set v : Vec (n + 1) := R *ᵥ x with hv
  have hvz : ∀ i : Fin n, i ≠ l → v i.castSucc = 0 := fun i hi => by
    have : v i.castSucc = ∑ s, b i s * x s := by rw [hv, hy]; simp [mulVec, dotProduct, withLast]
    rw [this, hxb i hi]
  have hadj : R.adjugate *ᵥ v = R.det • x := by rw [hv, mulVec_mulVec, adjugate_mul, smul_mulVec, one_mulVec]
  have two : ∀ f : Vec (n + 1), ∑ i, f i * v i = f l.castSucc * v l.castSucc + f (Fin.last n) * v (Fin.last n) := fun f => by
    rw [Fin.sum_univ_castSucc, Finset.sum_eq_single l]
    · intro i _ hi; rw [hvz i hi, mul_zero]
    · simp
  have e1 : R.adjugate (Fin.last n) l.castSucc * v l.castSucc + R.adjugate (Fin.last n) (Fin.last n) * v (Fin.last n) = 0 := by
    rw [← two]
    have := congrFun hadj (Fin.last n)
    rw [Pi.smul_apply, hlast, smul_zero] at this
    exact this
  have e2 : (R.updateRow l.castSucc w).det * v l.castSucc + (R.updateRow (Fin.last n) w).det * v (Fin.last n) = 0 := by
    rw [← two fun i => (R.updateRow i w).det]
    have : w ⬝ᵥ (R.adjugate *ᵥ v) = 0 := by rw [hadj, dotProduct_smul]; simp only [dotProduct]; rw [hxw, smul_zero]
    rw [dotProduct_mulVec] at this
    rw [← this]
    refine Finset.sum_congr rfl fun i _ => ?_
    rw [← vecMul_adjugate]; rfl
  have z1 : v l.castSucc = 0 := by
    refine (mul_eq_zero.1 ?_).resolve_left hF
    linear_combination (R.updateRow (Fin.last n) w).det * e1 - R.adjugate (Fin.last n) (Fin.last n) * e2
  have z2 : v (Fin.last n) = 0 := by
    refine (mul_eq_zero.1 ?_).resolve_left hF
    linear_combination R.adjugate (Fin.last n) l.castSucc * e2 - (R.updateRow l.castSucc w).det * e1
  have hv0 : v = 0 := by
    funext i
    refine Fin.lastCases z2 (fun j => ?_) i
    by_cases hj : j = l
    · rw [hj]; exact z1
    · exact hvz j hj
  rw [hv0, mulVec_zero] at hadj
  exact hx ((smul_eq_zero.1 hadj.symm).resolve_left hd)

/-! ### The search ends -/

theorem mem_tuples {m c : ℕ} (hm : 0 < m) {v : List ℕ} (hv : v.length = m) (hle : ∀ i (hi : i < v.length), v[i] ≤ 2 * c) : v ∈ tuples m c := by
  let u : ℕ → ℕ := fun i => if i < m then 2 * c + 1 else 2 * c
  obtain ⟨L, hnd, hL, hans⟩ := Latte.Enum.c12_box_enumeration m hm u (fun i hi => by simp [u, hi])
  have hcr : Latte.Enum.decrementUpperBound (Latte.Enum.create u m) = Latte.Enum.create (fun _ => 2 * c) m := by
    simp only [Latte.Enum.decrementUpperBound, Latte.Enum.create, Latte.Enum.St.mk.injEq, true_and, and_true]
    funext i
    by_cases hi : i < m <;> simp [u, hi]
  rw [hcr] at hans
  have hmem : v ∈ L := (hL v).2 ⟨hv, fun i hi => by have := hle i hi; have : i < m := hv ▸ hi; simp only [u, if_pos this]; omega⟩
  obtain ⟨k, hk, hkv⟩ := List.getElem_of_mem hmem
  have hlen : L.length ≤ (2 * c + 1) ^ m := by
    classical
    let g : List ℕ → Fin m → Fin (2 * c + 1) := fun x i => if h : x.getD i 0 < 2 * c + 1 then ⟨x.getD i 0, h⟩ else 0
    have hin : ∀ x ∈ L, ∀ y ∈ L, g x = g y → x = y := by
      intro x hx y hy e
      obtain ⟨lx, bx⟩ := (hL x).1 hx
      obtain ⟨ly, hby⟩ := (hL y).1 hy
      refine List.ext_getElem (by rw [lx, ly]) fun i h1 h2 => ?_
      have hi : i < m := lx ▸ h1
      have b1 := bx i h1
      have b2 := hby i h2
      simp only [u, if_pos hi] at b1 b2
      have e' := congrFun e ⟨i, hi⟩
      simp only [g, List.getD_eq_getElem?_getD, List.getElem?_eq_getElem h1, List.getElem?_eq_getElem h2, Option.getD_some, dif_pos b1, dif_pos b2, Fin.mk.injEq] at e'
      exact e'
    have hnd' : (L.map g).Nodup := (List.nodup_map_iff_inj_on hnd).2 hin
    have := hnd'.length_le_card
    simpa using this
  simp only [tuples, List.mem_filterMap, List.mem_range]
  refine ⟨k, by omega, ?_⟩
  rw [hans k, List.getElem?_eq_getElem hk, hkv]
  rfl

theorem search_finds {Rs : List (Mat (n + 1))} {U : Mat (n + 1)} {c : ℕ} (multi : Vec (n + 1)) (hle : ∀ j, |multi j| ≤ (c : ℤ)) (hmax : ∃ j, |multi j| = (c : ℤ))
    (ha : avoiding Rs U multi = true) : ∀ fuel c', c' ≤ c → c < c' + fuel → ∃ m, search Rs U fuel c' = some m
  | 0, c', h1, h2 => by omega
  | fuel + 1, c', h1, h2 => by
    rw [search]
    split
    · exact ⟨_, rfl⟩
    · rename_i hnone
      by_cases hc : c' = c
      · subst hc
        exfalso
        rw [List.find?_eq_none] at hnone
        refine hnone multi (List.mem_map.2 ⟨(List.finRange (n + 1)).map fun j => (multi j + c').toNat, mem_tuples (by omega) (by simp) ?_, ?_⟩) ?_
        · intro i hi
          have := abs_le.1 (hle ((List.finRange (n + 1))[i]'(by simpa using hi)))
          simp only [List.getElem_map]
          omega
        · funext j
          have := abs_le.1 (hle j)
          simp only [multipliers, List.getD_eq_getElem?_getD]
          rw [List.getElem?_eq_getElem (by simp; omega)]
          simp only [List.getElem_map, List.getElem_finRange, Option.getD_some]
          simp only [Fin.cast_mk, Fin.eta]
          omega
        · rw [Bool.and_eq_true, List.any_eq_true]
          obtain ⟨j, hj⟩ := hmax
          exact ⟨⟨j, List.mem_finRange j, by simpa using hj⟩, ha⟩
      · exact search_finds multi hle hmax ha fuel (c' + 1) (by omega) (by omega)

theorem det_repeat (R : Mat (n + 1)) {i j : Fin (n + 1)} (h : i ≠ j) : (R.updateRow i (R j)).det = 0 :=
  det_zero_of_row_eq h (by rw [updateRow_self, updateRow_ne h.symm])

/-- **C98.** If the rays of every boundary cone are independent, only zero lies in the span of all of them, and the last unit vector is in no span of all but one of the rays of a boundary cone, the loop without
end ends. -/
theorem c98_total {lll : Lll n} (hlll : LllOk lll) (B : List (Fin n → Vec (n + 1))) (hind : ∀ b ∈ B, ∃ x, (withLast b x).det ≠ 0)
    (hspan : ∀ x : Vec (n + 1), (∀ b ∈ B, (withLast b x).det = 0) → x = 0)
    (hlast : ∀ b ∈ B, ∀ l : Fin n, ∀ c : Fin n → ℤ, c l = 0 → ∀ d : ℤ, ∑ i, c i • b i = Pi.single (Fin.last n) d → d = 0) :
    ∃ fuel w dets, construct lll fuel B = .found w dets := by
  obtain ⟨Rs, hRs⟩ := completions_ends B hind
  have hf := completions_forall₂ hRs
  set U := (lll (Rs.map alphaColumn)).1 with hU
  have hrank : (lll (Rs.map alphaColumn)).2 = n + 1 := by
    rw [(hlll (Rs.map alphaColumn)).2]
    intro x hx
    refine hspan x fun b hb => ?_
    clear hRs hU hspan hlast hind
    clear_value U
    induction hf with
    | nil => cases hb
    | cons hb' _ ih =>
      rcases List.mem_cons.1 hb with rfl | hb
      · obtain ⟨y, hy, -⟩ := hb'
        rw [← alpha_det _ y, ← hy]
        exact hx _ (by simp)
      · exact ih (fun c hc => hx c (by rw [List.map_cons]; exact List.mem_cons_of_mem _ hc)) hb
  have hF : ∀ R ∈ Rs, ∀ l, fColumn R l ≠ 0 := by
    clear hRs hU hspan hind hrank
    clear_value U
    induction hf with
    | nil => intro R hR; cases hR
    | @cons b R B Rs hb' _ ih =>
      intro R' hR' l h0
      rcases List.mem_cons.1 hR' with rfl | hR'
      · obtain ⟨y, hy, hd⟩ := hb'
        have hrow : ∀ w : Vec (n + 1), (R'.updateRow (Fin.last n) w).det * R'.adjugate (Fin.last n) l.castSucc =
            (R'.updateRow l.castSucc w).det * R'.adjugate (Fin.last n) (Fin.last n) := fun w => by
          have := comb_f 1 R' w l
          rw [h0, vecMul_one] at this
          simp only [comb, Pi.zero_apply, mul_zero, Finset.sum_const_zero] at this
          linarith
        have hne : l.castSucc ≠ Fin.last n := (Fin.castSucc_lt_last l).ne
        have z1 : R'.adjugate (Fin.last n) l.castSucc = 0 := by
          have := hrow (R' (Fin.last n))
          rw [updateRow_eq_self, det_repeat R' hne, zero_mul] at this
          exact (mul_eq_zero.1 this).resolve_left hd
        have z2 : R'.adjugate (Fin.last n) (Fin.last n) = 0 := by
          have := hrow (R' l.castSucc)
          rw [updateRow_eq_self, det_repeat R' hne.symm, zero_mul] at this
          exact (mul_eq_zero.1 this.symm).resolve_left hd
        refine hd (hlast b List.mem_cons_self l (fun i => R'.adjugate (Fin.last n) i.castSucc) z1 R'.det ?_)
        have hrow' := congrFun (adjugate_mul R') (Fin.last n)
        funext s
        have := congrFun hrow' s
        rw [mul_apply, Fin.sum_univ_castSucc, z2, zero_mul, add_zero] at this
        rw [Finset.sum_apply]
        have e : ∀ i : Fin n, R' i.castSucc = b i := fun i => by rw [hy]; simp [withLast]
        simp only [e] at this
        simp only [Pi.smul_apply, smul_eq_mul]
        rw [this, Matrix.smul_apply, Matrix.one_apply, Pi.single_apply, smul_eq_mul]
        by_cases hs : Fin.last n = s
        · rw [if_pos hs, if_pos hs.symm, mul_one]
        · rw [if_neg hs, if_neg (Ne.symm hs), mul_zero]
      · exact ih (fun b hb => hlast b (List.mem_cons_of_mem _ hb)) R' hR' l h0
  obtain ⟨lam, hlam⟩ := PolySubst.generic_exists (Pi.single (Fin.last n) 1 :: Rs.flatMap fun R => (List.finRange n).map (fColumn R)) (by
    intro r hr
    rcases List.mem_cons.1 hr with rfl | hr
    · intro h; have := congrFun h (Fin.last n); simp at this
    · obtain ⟨R, hR, hr⟩ := List.mem_flatMap.1 hr
      obtain ⟨l, -, rfl⟩ := List.mem_map.1 hr
      exact hF R hR l)
  have hUu : IsUnit U.det := (hlll (Rs.map alphaColumn)).1
  let multi : Vec (n + 1) := lam ᵥ* U⁻¹
  have hmul : multi ᵥ* U = lam := by simp only [multi]; rw [vecMul_vecMul, nonsing_inv_mul _ hUu, vecMul_one]
  have hav : avoiding Rs U multi = true := avoiding_iff.2 fun R hR _ l => by
    rw [comb_eq, hmul]
    exact hlam _ (List.mem_cons_of_mem _ (List.mem_flatMap.2 ⟨R, hR, List.mem_map.2 ⟨l, List.mem_finRange l, rfl⟩⟩))
  have hm0 : multi ≠ 0 := by
    intro h0
    rw [h0, zero_vecMul] at hmul
    refine hlam _ List.mem_cons_self ?_
    rw [← hmul]; exact Finset.sum_eq_zero fun i _ => by simp
  obtain ⟨j0, -, hj0⟩ := Finset.exists_max_image Finset.univ (fun j => (multi j).natAbs) ⟨0, Finset.mem_univ _⟩
  obtain ⟨i, hi⟩ := Function.ne_iff.1 hm0
  have h1 : 1 ≤ (multi j0).natAbs := by have := hj0 i (Finset.mem_univ _); simp only [Pi.zero_apply] at hi; omega
  obtain ⟨m, hm⟩ := search_finds (Rs := Rs) (U := U) (c := (multi j0).natAbs) multi
    (fun j => by have := hj0 j (Finset.mem_univ _); rw [Int.abs_eq_natAbs]; exact_mod_cast this) ⟨j0, by rw [Int.abs_eq_natAbs]⟩ hav ((multi j0).natAbs) 1 h1 (by omega)
  exact ⟨_, _, _, by rw [construct, hRs]; dsimp only; rw [if_neg (not_not.2 hrank), ← hU, hm]⟩

/-! ### The completed cones -/

/-- The new ray, followed by the rays of the boundary cone. -/
def completed (w : Vec (n + 1)) (b : Fin n → Vec (n + 1)) : Mat (n + 1) := Fin.cons w b

theorem complete_mem (w : Vec (n + 1)) : ∀ (B : List (Fin n → Vec (n + 1))) (out : List (Mat (n + 1))),
    complete w B (B.map fun b => (withLast b w).det) out = ((B.filter fun b => (withLast b w).det ≠ 0).map fun b => completed w b).reverse ++ out
  | [], out => rfl
  | b :: B, out => by
    rw [List.map_cons, complete, complete_mem w B]
    by_cases h : (withLast b w).det = 0
    · simp [h]
    · simp only [h, List.filter_cons, ne_eq, not_false_eq_true, decide_true, if_true, List.map_cons, List.reverse_cons, List.append_assoc]
      rfl

/-- **C98.** The cones delivered are those boundary cones that the new ray completes to a basis, with the new ray in front; all are full-dimensional. -/
theorem c98_completed {lll : Lll n} (hlll : LllOk lll) {fuel : ℕ} {B : List (Fin n → Vec (n + 1))} {w : Vec (n + 1)} {dets : List ℤ}
    (h : construct lll fuel B = .found w dets) :
    complete w B dets [] = ((B.filter fun b => (withLast b w).det ≠ 0).map fun b => completed w b).reverse := by
  rw [(c98_vector hlll h).2, complete_mem, List.append_nil]

/-! ### When the new ray is an interior vector -/

/-- The product of an integer functional with a rational point. -/
def at_ (a : Vec (n + 1)) (x : Fin (n + 1) → ℚ) : ℚ := ∑ s, (a s : ℚ) * x s

/-- `x` is a combination of the rows of `M` with non-negative coefficients. -/
def InCone {m : ℕ} (M : Fin m → Vec (n + 1)) (x : Fin (n + 1) → ℚ) : Prop := ∃ c : Fin m → ℚ, (∀ i, 0 ≤ c i) ∧ ∀ s, x s = ∑ i, c i * (M i s : ℚ)

theorem det_of_interior {b : Fin n → Vec (n + 1)} {w a : Vec (n + 1)} (hind : ∃ x, (withLast b x).det ≠ 0) (hb : ∀ i, ∑ s, a s * b i s = 0)
    (hw : 0 < ∑ s, a s * w s) : (withLast b w).det ≠ 0 := by
  intro h0
  obtain ⟨v, hv, hvz⟩ := exists_vecMul_eq_zero_iff.2 h0
  have hsum : ∀ y : Vec (n + 1), ∀ s, (v ᵥ* withLast b y) s = (∑ i : Fin n, v i.castSucc * b i s) + v (Fin.last n) * y s := fun y s => by
    simp only [vecMul, dotProduct]
    rw [Fin.sum_univ_castSucc]
    simp [withLast]
  have hl : v (Fin.last n) = 0 := by
    have : ∑ s, a s * (v ᵥ* withLast b w) s = v (Fin.last n) * ∑ s, a s * w s := by
      simp only [hsum, mul_add, Finset.sum_add_distrib]
      rw [Finset.mul_sum, show ∑ s, a s * ∑ i : Fin n, v i.castSucc * b i s = 0 from ?_, zero_add]
      · exact Finset.sum_congr rfl fun s _ => by ring
      · simp only [Finset.mul_sum]
        rw [Finset.sum_comm]
        refine Finset.sum_eq_zero fun i _ => ?_
        rw [show ∑ s, a s * (v i.castSucc * b i s) = v i.castSucc * ∑ s, a s * b i s by
          rw [Finset.mul_sum]; exact Finset.sum_congr rfl fun s _ => by ring, hb i, mul_zero]
    rw [hvz] at this
    simp only [Pi.zero_apply, mul_zero, Finset.sum_const_zero] at this
    exact (mul_eq_zero.1 this.symm).resolve_right hw.ne'
  obtain ⟨x, hx⟩ := hind
  refine hx (exists_vecMul_eq_zero_iff.1 ⟨v, hv, ?_⟩)
  rw [← hvz]
  funext s
  rw [hsum, hsum, hl, zero_mul, zero_mul]

/-- **C98.** If the vector found is an interior vector (strictly positive for all inequalities of the cone), then no boundary cone is dropped, all cones delivered lie in the cone, and they cover it. -/
theorem c98_covers {lll : Lll n} (hlll : LllOk lll) {fuel : ℕ} {B : List (Fin n → Vec (n + 1))} {w : Vec (n + 1)} {dets : List ℤ}
    (h : construct lll fuel B = .found w dets) (A : List (Vec (n + 1))) (hA : A ≠ [])
    (hind : ∀ b ∈ B, ∃ x, (withLast b x).det ≠ 0) (hfacet : ∀ b ∈ B, ∃ a ∈ A, ∀ i, ∑ s, a s * b i s = 0)
    (hinside : ∀ b ∈ B, ∀ i, ∀ a ∈ A, 0 ≤ ∑ s, a s * b i s)
    (hbound : ∀ x, (∀ a ∈ A, 0 ≤ at_ a x) → (∃ a ∈ A, at_ a x = 0) → ∃ b ∈ B, InCone b x) (hw : ∀ a ∈ A, 0 < ∑ s, a s * w s) :
    (complete w B dets []).length = B.length ∧
      ∀ x, (∀ a ∈ A, 0 ≤ at_ a x) ↔ ∃ M ∈ complete w B dets [], InCone M x := by
  have hf : B.filter (fun b => (withLast b w).det ≠ 0) = B := List.filter_eq_self.2 fun b hb => by
    obtain ⟨a, ha, hz⟩ := hfacet b hb
    simpa using det_of_interior (hind b hb) hz (hw a ha)
  have hmem := c98_completed hlll h
  rw [hf] at hmem
  refine ⟨by rw [hmem]; simp, fun x => ⟨fun hx => ?_, ?_⟩⟩
  · have hwq : ∀ a ∈ A, 0 < at_ a (fun s => (w s : ℚ)) := fun a ha => by
      have := hw a ha
      have h1 : ((∑ s, a s * w s : ℤ) : ℚ) = at_ a (fun s => (w s : ℚ)) := by rw [at_]; push_cast; rfl
      rw [← h1]; exact_mod_cast this
    obtain ⟨a0, ha0, hmin⟩ : ∃ a0 ∈ A, ∀ a ∈ A, at_ a0 x / at_ a0 (fun s => (w s : ℚ)) ≤ at_ a x / at_ a (fun s => (w s : ℚ)) := by
      classical
      obtain ⟨a0, h0, hm⟩ := Finset.exists_min_image A.toFinset (fun a => at_ a x / at_ a (fun s => (w s : ℚ))) (by
        obtain ⟨a, ha⟩ := List.exists_mem_of_ne_nil A hA; exact ⟨a, List.mem_toFinset.2 ha⟩)
      exact ⟨a0, List.mem_toFinset.1 h0, fun a ha => hm a (List.mem_toFinset.2 ha)⟩
    set t := at_ a0 x / at_ a0 (fun s => (w s : ℚ)) with ht
    have ht0 : 0 ≤ t := div_nonneg (hx a0 ha0) (hwq a0 ha0).le
    have hlin : ∀ a : Vec (n + 1), at_ a (fun s => x s - t * (w s : ℚ)) = at_ a x - t * at_ a (fun s => (w s : ℚ)) := fun a => by
      simp only [at_]
      rw [Finset.mul_sum, ← Finset.sum_sub_distrib]
      exact Finset.sum_congr rfl fun s _ => by ring
    obtain ⟨b, hb, c, hc, hcx⟩ := hbound (fun s => x s - t * (w s : ℚ)) (fun a ha => by
        rw [hlin]
        have := hmin a ha
        rw [le_div_iff₀ (hwq a ha)] at this
        linarith) ⟨a0, ha0, by rw [hlin, ht, div_mul_cancel₀ _ (hwq a0 ha0).ne', sub_self]⟩
    refine ⟨completed w b, by rw [hmem]; simpa using ⟨b, hb, rfl⟩, Fin.cons t c, fun i => ?_, fun s => ?_⟩
    · refine Fin.cases ?_ (fun i => ?_) i
      · rw [Fin.cons_zero]; exact ht0
      · rw [Fin.cons_succ]; exact hc i
    · rw [Fin.sum_univ_succ, Fin.cons_zero]
      have := hcx s
      simp only [completed, Fin.cons_zero, Fin.cons_succ]
      linarith
  · rintro ⟨M, hM, c, hc, hcx⟩ a ha
    rw [hmem, List.mem_reverse, List.mem_map] at hM
    obtain ⟨b, hb, rfl⟩ := hM
    have hrow : ∀ i, 0 ≤ ∑ s, a s * completed w b i s := fun i => by
      refine Fin.cases ?_ (fun i => ?_) i
      · simp only [completed, Fin.cons_zero]; exact (hw a ha).le
      · simp only [completed, Fin.cons_succ]; exact hinside b hb i a ha
    have : at_ a x = ∑ i, c i * ((∑ s, a s * completed w b i s : ℤ) : ℚ) := by
      simp only [at_, hcx]
      push_cast
      simp only [Finset.mul_sum]
      rw [Finset.sum_comm]
      exact Finset.sum_congr rfl fun i _ => Finset.sum_congr rfl fun s _ => by ring
    rw [this]
    exact Finset.sum_nonneg fun i _ => mul_nonneg (hc i) (by exact_mod_cast hrow i)

/-! ### What fails, and a case that works -/

/-- The boundary of the cone generated by (1,0) and (1,1) in the plane. -/
def twoRays : List (Fin 1 → Vec 2) := [fun _ => ![1, 0], fun _ => ![1, 1]]

theorem twoRays_completions : completions twoRays = some [!![1, 0; 0, 1], !![1, 1; 1, 0]] := by decide +kernel

theorem twoRays_search : search [!![1, 0; 0, 1], !![1, 1; 1, 0]] (!![1, 0; 1, 1] : Mat 2) 1 1 = some ![-1, 0] := by decide +kernel

/-- What `LLL` does with the rows (0,−1), (1,1) of that cone: they become (0,−1), (1,0). -/
theorem twoRays_run (lll : Lll 1) (h : lll [![0, 1], ![-1, 1]] = (!![1, 0; 1, 1], 2)) :
    construct lll 1 twoRays = .found ![-1, 0] [0, 1] := by
  have e : ([!![1, 0; 0, 1], !![1, 1; 1, 0]] : List (Mat 2)).map alphaColumn = [![0, 1], ![-1, 1]] := by decide +kernel
  rw [construct, twoRays_completions]
  dsimp only
  rw [e, h, if_neg (by decide), twoRays_search]
  exact congrArg₂ Result.found (by decide +kernel) (by decide +kernel)

theorem twoRays_lll : ∃ lll : Lll 1, LllOk lll ∧ lll [![0, 1], ![-1, 1]] = (!![1, 0; 1, 1], 2) := by
  classical
  obtain ⟨lll, h⟩ := lllOk_exists (n := 1)
  refine ⟨fun cols => if cols = [![0, 1], ![-1, 1]] then (!![1, 0; 1, 1], 2) else lll cols, fun cols => ?_, if_pos rfl⟩
  dsimp only
  split
  · rename_i hc
    subst hc
    refine ⟨by simp [det_fin_two], ?_⟩
    simp only [true_iff]
    intro x hx
    have h1 := hx ![0, 1] (by simp)
    have h2 := hx ![-1, 1] (by simp)
    rw [Fin.sum_univ_two] at h1 h2
    have e1 : x 0 * 0 + x 1 * 1 = 0 := h1
    have e2 : x 0 * -1 + x 1 * 1 = 0 := h2
    funext i
    fin_cases i
    · change x 0 = 0; linarith
    · change x 1 = 0; linarith
  · exact h cols

/-- **C98, what fails.** The header promises a triangulation of the cone.  For the cone generated by (1,0) and (1,1) the vector found is (−1,0), and the one cone delivered, generated by (−1,0) and (1,1), does
not contain the point (2,1), an interior point of the cone. -/
theorem c98_not_a_triangulation_violation : ∃ lll : Lll 1, LllOk lll ∧ construct lll 1 twoRays = .found ![-1, 0] [0, 1] ∧
    (∃ c : Fin 2 → ℚ, (∀ i, 0 < c i) ∧ ∀ j, c 0 * (![1, 0] : Vec 2) j + c 1 * (![1, 1] : Vec 2) j = (![2, 1] : Vec 2) j) ∧
    ∀ M ∈ complete ![-1, 0] twoRays [0, 1] [], ¬ ∃ c : Fin 2 → ℚ, (∀ i, 0 ≤ c i) ∧ ∀ j, ∑ i, c i * M i j = (![2, 1] : Vec 2) j := by
  obtain ⟨lll, h, hv⟩ := twoRays_lll
  refine ⟨lll, h, twoRays_run lll hv, ⟨fun _ => 1, fun _ => one_pos, fun j => by fin_cases j <;> norm_num⟩, fun M hM => ?_⟩
  have : complete ![-1, 0] twoRays [0, 1] [] = [(!![-1, 0; 1, 1] : Mat 2)] := by decide +kernel
  rw [this, List.mem_singleton] at hM
  subst hM
  rintro ⟨c, hc, h⟩
  have h0 := h 0
  have h1 := h 1
  simp only [Fin.sum_univ_two, of_apply, cons_val_zero, cons_val_one] at h0 h1
  push_cast at h0 h1
  have := hc 0
  linarith

/-- The hypotheses of `c98_total` are met for that cone. -/
theorem twoRays_total {lll : Lll 1} (h : LllOk lll) : ∃ fuel w dets, construct lll fuel twoRays = .found w dets := by
  refine c98_total h _ (fun b hb => ?_) (fun x hx => ?_) (fun b hb l c hc d hd => ?_)
  · simp only [twoRays, List.mem_cons, List.not_mem_nil, or_false] at hb
    rcases hb with rfl | rfl
    · exact ⟨![0, 1], by decide +kernel⟩
    · exact ⟨![0, 1], by decide +kernel⟩
  · have h1 := hx (fun _ => ![1, 0]) (by simp [twoRays])
    have h2 := hx (fun _ => ![1, 1]) (by simp [twoRays])
    rw [det_fin_two] at h1 h2
    have e : ∀ r : Vec 2, withLast (fun _ : Fin 1 => r) x 0 = r ∧ withLast (fun _ : Fin 1 => r) x 1 = x := fun r => ⟨rfl, rfl⟩
    simp only [e, cons_val_zero, cons_val_one] at h1 h2
    funext i
    fin_cases i
    · change x 0 = 0; linarith
    · change x 1 = 0; linarith
  · have hc0 : c = 0 := by funext i; rw [Subsingleton.elim i l]; exact hc
    subst hc0
    have := congrFun hd (Fin.last 1)
    simpa using this.symm

/-- The hypotheses of `c98_covers` are met for that cone, if `LLL` delivers another transformation with the same contract. -/
theorem c98_covers_met : ∃ lll : Lll 1, LllOk lll ∧ construct lll 1 twoRays = .found ![2, 1] [1, -1] ∧
    (complete ![2, 1] twoRays [1, -1] []).length = 2 ∧
    ∀ x, (∀ a ∈ ([![0, 1], ![1, -1]] : List (Vec 2)), 0 ≤ at_ a x) ↔ ∃ M ∈ complete ![2, 1] twoRays [1, -1] [], InCone M x := by
  classical
  obtain ⟨lll0, h0⟩ := lllOk_exists (n := 1)
  obtain ⟨lll1, h1, h1v⟩ := twoRays_lll
  let lll : Lll 1 := fun cols => if cols = [![0, 1], ![-1, 1]] then (!![-2, -1; 1, 0], 2) else lll0 cols
  have hlll : LllOk lll := fun cols => by
    by_cases hc : cols = [![0, 1], ![-1, 1]]
    · have := (h1 cols).2
      rw [hc, h1v] at this
      simp only [lll, if_pos hc]
      exact ⟨by rw [det_fin_two]; simp, by rw [hc]; exact ⟨fun _ => this.1 rfl, fun _ => trivial⟩⟩
    · simp only [lll, if_neg hc]; exact h0 cols
  have hrun : construct lll 1 twoRays = .found ![2, 1] [1, -1] := by
    have e : ([!![1, 0; 0, 1], !![1, 1; 1, 0]] : List (Mat 2)).map alphaColumn = [![0, 1], ![-1, 1]] := by decide +kernel
    have es : search [!![1, 0; 0, 1], !![1, 1; 1, 0]] (!![-2, -1; 1, 0] : Mat 2) 1 1 = some ![-1, 0] := by decide +kernel
    rw [construct, twoRays_completions]
    dsimp only
    rw [e]
    simp only [lll, if_true]
    rw [if_neg (by decide), es]
    exact congrArg₂ Result.found (by decide +kernel) (by decide +kernel)
  refine ⟨lll, hlll, hrun, ?_⟩
  have hat : ∀ (a : Vec 2) (x : Fin 2 → ℚ), at_ a x = a 0 * x 0 + a 1 * x 1 := fun a x => Fin.sum_univ_two _
  refine c98_covers hlll hrun [![0, 1], ![1, -1]] (by simp) (fun b hb => ?_) (fun b hb => ?_) (fun b hb => ?_) (fun x hx hz => ?_) (by decide +kernel)
  · simp only [twoRays, List.mem_cons, List.not_mem_nil, or_false] at hb
    rcases hb with rfl | rfl
    · exact ⟨![0, 1], by decide +kernel⟩
    · exact ⟨![0, 1], by decide +kernel⟩
  · simp only [twoRays, List.mem_cons, List.not_mem_nil, or_false] at hb
    rcases hb with rfl | rfl
    · exact ⟨![0, 1], by simp, by decide +kernel⟩
    · exact ⟨![1, -1], by simp, by decide +kernel⟩
  · simp only [twoRays, List.mem_cons, List.not_mem_nil, or_false] at hb
    rcases hb with rfl | rfl <;> decide +kernel
  · have a1 := hx ![0, 1] (by simp)
    have a2 := hx ![1, -1] (by simp)
    rw [hat] at a1 a2
    simp only [cons_val_zero, cons_val_one] at a1 a2
    push_cast at a1 a2
    obtain ⟨a, ha, hz⟩ := hz
    rw [hat] at hz
    simp only [List.mem_cons, List.not_mem_nil, or_false] at ha
    rcases ha with rfl | rfl
    · simp only [cons_val_zero, cons_val_one] at hz
      push_cast at hz
      refine ⟨fun _ => ![1, 0], by simp [twoRays], fun _ => x 0, fun _ => by linarith, fun s => ?_⟩
      rw [Fin.sum_univ_one]
      fin_cases s
      · change x 0 = x 0 * ((1 : ℤ) : ℚ); push_cast; ring
      · change x 1 = x 0 * ((0 : ℤ) : ℚ); push_cast; linarith
    · simp only [cons_val_zero, cons_val_one] at hz
      push_cast at hz
      refine ⟨fun _ => ![1, 1], by simp [twoRays], fun _ => x 0, fun _ => by linarith, fun s => ?_⟩
      rw [Fin.sum_univ_one]
      fin_cases s
      · change x 0 = x 0 * ((1 : ℤ) : ℚ); push_cast; ring
      · change x 1 = x 0 * ((1 : ℤ) : ℚ); push_cast; linarith

end Verif.Boundary

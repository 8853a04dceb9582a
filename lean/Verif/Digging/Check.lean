import Verif.Digging.Optimum

/-!
# Checking that cones represent a finite set of lattice points in dimension 3

The identity of the rational generating functions is multiplied by all `1 - x^r` and the coefficients are compared.
-/

namespace Verif.Digging

open Verif.Barvinok (Vec)
open Verif.ExpSubst
open Verif.PolySubst (den' OffCone)

/-- Laurent polynomials in three variables: coefficients and exponents. -/
abbrev P3 := List (ℤ × ℤ × ℤ × ℤ)

def vec3 (e : ℤ × ℤ × ℤ) : Vec 3 := ![e.1, e.2.1, e.2.2]

noncomputable def lp (p : P3) : LP 3 := (p.map fun t => (t.1 : ℚ) • mono (vec3 t.2)).sum

def less (a b : ℤ × ℤ × ℤ) : Bool := a.1 < b.1 || (a.1 == b.1 && (a.2.1 < b.2.1 || (a.2.1 == b.2.1 && a.2.2 < b.2.2)))

/-- Addition of sorted polynomials. -/
def add3 : (fuel : ℕ) → P3 → P3 → P3
  | 0, p, q => p ++ q
  | _ + 1, [], q => q
  | _ + 1, p, [] => p
  | fuel + 1, s :: p, t :: q =>
    if s.2 = t.2 then (if s.1 + t.1 = 0 then add3 fuel p q else (s.1 + t.1, s.2) :: add3 fuel p q)
    else if less s.2 t.2 then s :: add3 fuel p (t :: q)
    else t :: add3 fuel (s :: p) q

def move3 (c : ℤ) (r : ℤ × ℤ × ℤ) (p : P3) : P3 := p.map fun t => (c * t.1, t.2.1 + r.1, t.2.2.1 + r.2.1, t.2.2.2 + r.2.2)

def times3 (p : P3) (r : ℤ × ℤ × ℤ) : P3 := add3 (2 * p.length) p (move3 (-1) r p)

theorem lp_cons (t : ℤ × ℤ × ℤ × ℤ) (p : P3) : lp (t :: p) = (t.1 : ℚ) • mono (vec3 t.2) + lp p := rfl

theorem lp_append (p q : P3) : lp (p ++ q) = lp p + lp q := by
  unfold lp
  rw [List.map_append, List.sum_append]

theorem lp_add3 : ∀ (fuel : ℕ) (p q : P3), lp (add3 fuel p q) = lp p + lp q := by
  intro fuel
  induction fuel with
  | zero => intro p q; exact lp_append p q
  | succ fuel ih =>
    intro p q
    cases p with
    | nil =>
      rw [add3]
      exact (zero_add _).symm
    | cons s p =>
      cases q with
      | nil =>
        rw [add3]
        · exact (add_zero _).symm
        · intro h; cases h
      | cons t q =>
        rw [add3]
        by_cases h1 : s.2 = t.2
        · rw [if_pos h1]
          have key : ((s.1 + t.1 : ℤ) : ℚ) • mono (vec3 s.2) = (s.1 : ℚ) • mono (vec3 s.2) + (t.1 : ℚ) • mono (vec3 t.2) := by
            rw [← h1, ← add_smul]; push_cast; rfl
          by_cases h2 : s.1 + t.1 = 0
          · rw [if_pos h2, ih, lp_cons, lp_cons]
            rw [h2, Int.cast_zero, zero_smul] at key
            rw [add_add_add_comm, ← key, zero_add]
          · rw [if_neg h2, lp_cons, lp_cons, lp_cons, ih]
            show ((s.1 + t.1 : ℤ) : ℚ) • mono (vec3 s.2) + _ = _
            rw [key]
            abel
        · rw [if_neg h1]
          by_cases h2 : less s.2 t.2
          · rw [if_pos h2, lp_cons, ih, lp_cons, lp_cons]
            abel
          · rw [if_neg h2, lp_cons, ih, lp_cons, lp_cons]
            abel

theorem lp_move3 (c : ℤ) (r : ℤ × ℤ × ℤ) (p : P3) : lp (move3 c r p) = (c : ℚ) • (mono (vec3 r) * lp p) := by
  induction p with
  | nil => show (0 : LP 3) = _; rw [show lp [] = 0 from rfl, mul_zero, smul_zero]
  | cons t p ih =>
    rw [lp_cons]
    show lp ((c * t.1, t.2.1 + r.1, t.2.2.1 + r.2.1, t.2.2.2 + r.2.2) :: move3 c r p) = _
    rw [lp_cons, ih, mul_add, smul_add]
    congr 1
    have : vec3 (t.2.1 + r.1, t.2.2.1 + r.2.1, t.2.2.2 + r.2.2) = vec3 r + vec3 t.2 := by
      unfold vec3
      funext i
      fin_cases i <;> simp [add_comm]
    rw [this, mono_add, mul_smul_comm, smul_smul]
    push_cast
    rfl

theorem lp_times3 (p : P3) (r : ℤ × ℤ × ℤ) : lp (times3 p r) = lp p * (1 - mono (vec3 r)) := by
  unfold times3
  rw [lp_add3, lp_move3]
  push_cast
  rw [neg_one_smul, mul_sub, mul_one, mul_comm (lp p)]
  abel

theorem lp_foldl (rs : List (ℤ × ℤ × ℤ)) : ∀ p : P3, lp (rs.foldl times3 p) = lp p * den' (rs.map vec3) := by
  induction rs with
  | nil => intro p; unfold den'; simp
  | cons r rs ih =>
    intro p
    rw [List.foldl_cons, ih, lp_times3]
    unfold den'
    rw [List.map_cons, List.map_cons, List.prod_cons, mul_assoc]

/-- A cone for the check: the coefficient, the point and the rays. -/
structure C3 where
  eps : ℤ
  pt : ℤ × ℤ × ℤ
  rays : List (ℤ × ℤ × ℤ)

def C3.cone (C : C3) : OffCone 3 := ⟨C.eps, [vec3 C.pt], C.rays.map vec3⟩

/-- The turned rays as sublists of `R`: `keep` are the rays of `R` that are not (turned) rays of the cone. -/
def turn3 (cost r : ℤ × ℤ × ℤ) : ℤ × ℤ × ℤ :=
  if 0 < cost.1 * r.1 + cost.2.1 * r.2.1 + cost.2.2 * r.2.2 then (-r.1, -r.2.1, -r.2.2) else r

def sub3 (a b : ℤ × ℤ × ℤ) : ℤ × ℤ × ℤ := (a.1 - b.1, a.2.1 - b.2.1, a.2.2 - b.2.2)

def in3 (a b : ℤ × ℤ × ℤ) : ℤ := a.1 * b.1 + a.2.1 * b.2.1 + a.2.2 * b.2.2

def apex3 (cost : ℤ × ℤ × ℤ) (C : C3) : ℤ × ℤ × ℤ := (C.rays.filter fun r => 0 < in3 cost r).foldl sub3 C.pt

def sign3 (cost : ℤ × ℤ × ℤ) (C : C3) : ℤ := (-1) ^ (C.rays.filter fun r => 0 < in3 cost r).length

def rest3 (cost : ℤ × ℤ × ℤ) (R : List (ℤ × ℤ × ℤ)) (C : C3) : List (ℤ × ℤ × ℤ) := R.filter fun r => ¬ r ∈ C.rays.map (turn3 cost)

/-- The left-hand side minus the right-hand side. -/
def diff3 (cost : ℤ × ℤ × ℤ) (R : List (ℤ × ℤ × ℤ)) (cones : List C3) (S : List (ℤ × ℤ × ℤ)) : P3 :=
  let lhs := cones.foldl (fun acc C => let t := (rest3 cost R C).foldl times3 [(C.eps * sign3 cost C, apex3 cost C)]
    add3 (acc.length + t.length) acc t) []
  let den := R.foldl times3 [(1, 0, 0, 0)]
  S.foldl (fun acc s => let t := move3 (-1) s den
    add3 (acc.length + t.length) acc t) lhs

/-- All that is checked. -/
def check3 (cost : ℤ × ℤ × ℤ) (R : List (ℤ × ℤ × ℤ)) (cones : List C3) (S : List (ℤ × ℤ × ℤ)) : Bool :=
  decide (diff3 cost R cones S = []) && decide (S.Nodup) && decide (R.Nodup) && R.all (fun r => decide (r ≠ (0, 0, 0))) &&
  cones.all fun C => decide (C.eps = 1 ∨ C.eps = -1) && decide (C.rays ≠ []) && C.rays.all (fun r => decide (in3 cost r ≠ 0)) &&
    decide ((C.rays.map (turn3 cost)).Nodup) && (C.rays.map (turn3 cost)).all fun r => decide (r ∈ R)

theorem inner_vec3 (a b : ℤ × ℤ × ℤ) : inner (vec3 a) (vec3 b) = in3 a b := by
  unfold ExpSubst.inner vec3 in3
  rw [Fin.sum_univ_three]
  rfl

theorem vec3_injective : Function.Injective vec3 := by
  intro a b h
  have h0 := congrFun h 0
  have h1 := congrFun h 1
  have h2 := congrFun h 2
  ext
  · exact h0
  · exact h1
  · exact h2

theorem turn_vec3 (cost r : ℤ × ℤ × ℤ) : turn (vec3 cost) (vec3 r) = vec3 (turn3 cost r) := by
  unfold turn turn3
  rw [inner_vec3]
  unfold in3
  split_ifs with h
  · unfold vec3; funext i; fin_cases i <;> simp
  · rfl

theorem filter_vec3 (cost : ℤ × ℤ × ℤ) (rays : List (ℤ × ℤ × ℤ)) :
    ((rays.map vec3).filter fun r => 0 < inner (vec3 cost) r) = (rays.filter fun r => 0 < in3 cost r).map vec3 := by
  rw [List.filter_map]
  congr 1
  refine List.filter_congr fun r _ => ?_
  simp only [Function.comp, inner_vec3]

theorem foldl_sub3 (rs : List (ℤ × ℤ × ℤ)) : ∀ p, vec3 (rs.foldl sub3 p) = vec3 p - (rs.map vec3).sum := by
  induction rs with
  | nil => intro p; simp
  | cons r rs ih =>
    intro p
    rw [List.foldl_cons, ih, List.map_cons, List.sum_cons]
    have : vec3 (sub3 p r) = vec3 p - vec3 r := by
      unfold vec3 sub3; funext i; fin_cases i <;> simp
    rw [this]; abel

/-- **The check is right.** -/
theorem represents_of_check (cost : ℤ × ℤ × ℤ) (R : List (ℤ × ℤ × ℤ)) (cones : List C3) (S : List (ℤ × ℤ × ℤ)) (h : check3 cost R cones S = true) :
    Represents (cones.map C3.cone) {z | z ∈ S.map vec3} := by
  classical
  unfold check3 at h
  simp only [Bool.and_eq_true, decide_eq_true_eq, List.all_eq_true] at h
  obtain ⟨⟨⟨⟨hdiff, hS⟩, hR⟩, hR0⟩, hC⟩ := h
  let K : C3 → Lat 3 → ℚ := fun C => expand (turnSign (vec3 cost) (C.rays.map vec3)) (apex (vec3 cost) (vec3 C.pt) (C.rays.map vec3))
    ((C.rays.map vec3).map (turn (vec3 cost)))
  have hgen : ∀ C ∈ cones, ∀ r ∈ C.rays.map vec3, inner (vec3 cost) r ≠ 0 := by
    intro C hCm r hr
    obtain ⟨r', hr', rfl⟩ := List.mem_map.1 hr
    rw [inner_vec3]
    exact (hC C hCm).1.1.2 r' hr'
  have hmap : ∀ C : C3, (C.rays.map vec3).map (turn (vec3 cost)) = (C.rays.map (turn3 cost)).map vec3 := by
    intro C
    rw [List.map_map, List.map_map]
    exact List.map_congr_left fun r _ => turn_vec3 cost r
  -- one cone
  have hone : ∀ C ∈ cones, act (den' (R.map vec3)) (K C) = emb (lp ((rest3 cost R C).foldl times3 [(sign3 cost C, apex3 cost C)])) := by
    intro C hCm
    have hneg : ∀ f ∈ (C.rays.map (turn3 cost)).map vec3, inner (vec3 cost) f < 0 := by
      rw [← hmap]
      intro f hf
      obtain ⟨r, hr, rfl⟩ := List.mem_map.1 hf
      exact turn_neg (hgen C hCm r hr)
    have hperm : R.Perm (rest3 cost R C ++ C.rays.map (turn3 cost)) := by
      have h1 := (hC C hCm).1.2
      have h2 := (hC C hCm).2
      refine (List.perm_ext_iff_of_nodup hR ?_).2 fun r => ?_
      · refine List.Nodup.append (hR.filter _) h1 ?_
        intro r hr hr'
        have := (List.mem_filter.1 hr).2
        exact (of_decide_eq_true this) hr'
      · rw [List.mem_append]
        unfold rest3
        rw [List.mem_filter]
        constructor
        · intro hr
          by_cases hm : r ∈ C.rays.map (turn3 cost)
          · exact Or.inr hm
          · exact Or.inl ⟨hr, decide_eq_true hm⟩
        · rintro (hr | hr)
          · exact hr.1
          · exact h2 r hr
    have hden : den' (R.map vec3) = den' ((rest3 cost R C).map vec3) * den' ((C.rays.map (turn3 cost)).map vec3) := by
      rw [den'_perm (hperm.map vec3)]
      unfold den'
      rw [List.map_append, List.map_append, List.prod_append]
    have e1 : K C = ((sign3 cost C : ℤ) : ℚ) • act (mono (vec3 (apex3 cost C))) (mult ((C.rays.map (turn3 cost)).map vec3)) := by
      funext z
      show expand _ _ _ z = _
      rw [Pi.smul_apply, act_mono, hmap]
      unfold expand turnSign apex sign3 apex3
      rw [filter_vec3, foldl_sub3, List.length_map]
      rfl
    have comm : ∀ (A B : LP 3) (f : Lat 3 → ℚ), act A (act B f) = act (A * B) f := by
      intro A B f; rw [map_mul]; rfl
    rw [e1, map_smul, comm, hden, lp_foldl]
    have e2 : den' ((rest3 cost R C).map vec3) * den' ((C.rays.map (turn3 cost)).map vec3) * mono (vec3 (apex3 cost C)) =
        (den' ((rest3 cost R C).map vec3) * mono (vec3 (apex3 cost C))) * den' ((C.rays.map (turn3 cost)).map vec3) := by ring
    rw [e2, ← comm, act_mult _ hneg, act_emb, mul_one, ← emb_smul]
    congr 1
    unfold lp
    simp only [List.map_cons, List.map_nil, List.sum_cons, List.sum_nil, add_zero]
    rw [smul_mul_assoc, mul_comm]
  refine ⟨?_, ?_, ?_, cones.map fun C => (C.cone, K C), ?_, ?_, _, ⟨den' (R.map vec3), den'_ne_zero ?_, ?_⟩, fun z => (add_sub_cancel _ _).symm⟩
  · intro C hCm
    obtain ⟨C, -, rfl⟩ := List.mem_map.1 hCm
    exact ⟨_, rfl⟩
  · intro C hCm
    obtain ⟨C, hCm', rfl⟩ := List.mem_map.1 hCm
    have := (hC C hCm').1.1.1.2
    intro hc
    exact this (List.map_eq_nil_iff.1 hc)
  · intro C hCm
    obtain ⟨C, hCm', rfl⟩ := List.mem_map.1 hCm
    exact (hC C hCm').1.1.1.1
  · rw [List.map_map]; rfl
  · intro b hb
    obtain ⟨C, hCm, rfl⟩ := List.mem_map.1 hb
    exact act_expand (vec3 C.pt) _ _ (List.Perm.refl _) (hgen C hCm)
  · intro r hr
    obtain ⟨r', hr', rfl⟩ := List.mem_map.1 hr
    intro h0
    exact hR0 r' hr' (vec3_injective (h0.trans (by unfold vec3; funext i; fin_cases i <;> rfl)))
  · -- the identity
    have hL : ∀ (l : List C3), (∀ C ∈ l, C ∈ cones) → ∀ acc : P3,
        emb (lp (l.foldl (fun acc C => let t := (rest3 cost R C).foldl times3 [(C.eps * sign3 cost C, apex3 cost C)]
          add3 (acc.length + t.length) acc t) acc)) = emb (lp acc) + act (den' (R.map vec3)) (l.map fun C => (C.eps : ℚ) • K C).sum := by
      intro l
      induction l with
      | nil => intro _ acc; simp
      | cons C l ih =>
        intro hl acc
        rw [List.foldl_cons, ih (fun D hD => hl D (List.mem_cons_of_mem _ hD)), List.map_cons, List.sum_cons, map_add, map_smul,
          hone C (hl C List.mem_cons_self)]
        dsimp only
        rw [lp_add3, emb_add, ← emb_smul]
        have : lp ((rest3 cost R C).foldl times3 [(C.eps * sign3 cost C, apex3 cost C)]) =
            (C.eps : ℚ) • lp ((rest3 cost R C).foldl times3 [(sign3 cost C, apex3 cost C)]) := by
          rw [lp_foldl, lp_foldl, ← smul_mul_assoc]
          congr 1
          unfold lp
          simp only [List.map_cons, List.map_nil, List.sum_cons, List.sum_nil, add_zero]
          rw [smul_smul]; push_cast; rfl
        rw [this, add_assoc]
    have hden : lp (R.foldl times3 [(1, 0, 0, 0)]) = den' (R.map vec3) := by
      rw [lp_foldl]
      have : lp [(1, 0, 0, 0)] = 1 := by
        unfold lp
        simp only [List.map_cons, List.map_nil, List.sum_cons, List.sum_nil, add_zero, Int.cast_one, one_smul]
        rw [← mono_zero]
        congr 1
        unfold vec3; funext i; fin_cases i <;> rfl
      rw [this, one_mul]
    have hRS : ∀ (l : List (ℤ × ℤ × ℤ)) (acc : P3),
        lp (l.foldl (fun acc s => let t := move3 (-1) s (R.foldl times3 [(1, 0, 0, 0)])
          add3 (acc.length + t.length) acc t) acc) = lp acc - den' (R.map vec3) * gf (l.map vec3) := by
      intro l
      induction l with
      | nil => intro acc; unfold gf; simp
      | cons s l ih =>
        intro acc
        rw [List.foldl_cons, ih]
        dsimp only
        rw [lp_add3, lp_move3, hden]
        unfold gf
        rw [List.map_cons, List.map_cons, List.sum_cons]
        push_cast
        rw [neg_one_smul]
        ring
    have hzero : lp (diff3 cost R cones S) = 0 := by rw [hdiff]; rfl
    unfold diff3 at hzero
    dsimp only at hzero
    rw [hRS] at hzero
    have h1 := hL cones (fun _ h => h) []
    rw [sub_eq_zero.1 hzero, show lp [] = 0 from rfl] at h1
    have e0 : emb (0 : LP 3) = 0 := by unfold emb; rw [map_zero]; rfl
    rw [e0, zero_add] at h1
    have hind : (fun z => ((cones.map fun C => (C.cone, K C)).map fun b => ((b.1.coefficient : ℤ) : ℚ) * b.2 z).sum -
        ({z | z ∈ S.map vec3} : Set (Vec 3)).indicator (1 : Vec 3 → ℚ) z) = (cones.map fun C => (C.eps : ℚ) • K C).sum - emb (gf (S.map vec3)) := by
      funext z
      rw [Pi.sub_apply, list_sum_apply, List.map_map, emb_gf _ (hS.map vec3_injective), Set.indicator_apply]
      rfl
    show act (den' (R.map vec3)) (fun z => _) = 0
    rw [hind, map_sub, ← h1, act_emb, sub_self]

end Verif.Digging

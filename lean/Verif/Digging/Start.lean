import Verif.Digging.Next
import Mathlib.Data.List.Perm.Basic
import Mathlib.Data.List.Induction

/-!
# The constructor of `ConeInfo`

The rays are turned so that the cost decreases along all of them and sorted; what `Calculate_Integral_Point` returns is the vertex of the turned cone plus a
combination of the turned rays.
-/

namespace Verif.Digging

open Verif.Barvinok (Vec)
open Verif.ExpSubst (inner)
open Verif.PolySubst (OffCone)

variable {n : ℕ}

/-! ## Specification -/

/-- The ray or its negative, so that the cost decreases. -/
def turn (cost r : Vec n) : Vec n := if 0 < inner cost r then -r else r

/-- The point moved by all rays that are turned. -/
def apex (cost pt : Vec n) (rays : List (Vec n)) : Vec n := pt - ((rays.filter fun r => 0 < inner cost r).sum)

/-- `(-1)` to the number of rays that are turned. -/
def turnSign (cost : Vec n) (rays : List (Vec n)) : ℤ := (-1) ^ (rays.filter fun r => 0 < inner cost r).length

/-- `∑ eᵢ fᵢ`. -/
def lincomb (e : List ℕ) (fs : List (Vec n)) : Vec n := (List.zipWith (fun (x : ℕ) (f : Vec n) => (x : ℤ) • f) e fs).sum

/-- The object stands for the cone with vertex `p` and generators `fs`. -/
structure StandsFor (cost : Vec n) (c : Info n) (p : Vec n) (fs : List (Vec n)) : Prop where
  svals : c.svals = fs.map (inner cost)
  numer : c.numer = inner cost p
  point : ∀ e : List ℕ, e.length = fs.length → integralPoint c e = p + lincomb e fs

theorem StandsFor.same {cost : Vec n} {c c' : Info n} {p : Vec n} {fs : List (Vec n)} (h : StandsFor cost c p fs) (hs : SameCone c c') :
    StandsFor cost c' p fs := by
  obtain ⟨h1, h2, h3, h4, h5, h6⟩ := hs
  refine ⟨h5.trans h.svals, h1.trans h.numer, fun e he => ?_⟩
  rw [← h.point e he]
  unfold integralPoint
  rw [h2, h3, h4, h6]

/-! ## Sorting -/

theorem bubbleFrom_perm : ∀ (l : List (ℤ × ℕ)) (a : ℤ × ℕ), (bubbleFrom a l).Perm (a :: l) := by
  intro l
  induction l with
  | nil => intro a; exact List.Perm.refl _
  | cons b l ih =>
    intro a
    unfold bubbleFrom
    by_cases h : b.1 > a.1
    · rw [if_pos h]
      exact ((ih a).cons b).trans (List.Perm.swap a b l)
    · rw [if_neg h]
      exact (ih b).cons a

theorem bubble_perm (l : List (ℤ × ℕ)) : (bubble l).Perm l := by
  cases l with
  | nil => exact List.Perm.refl _
  | cons a l => exact bubbleFrom_perm l a

theorem bubbleFrom_last : ∀ (l : List (ℤ × ℕ)) (a : ℤ × ℕ), ∃ l' m, bubbleFrom a l = l' ++ [m] ∧ ∀ x ∈ l', m.1 ≤ x.1 := by
  intro l
  induction l with
  | nil => intro a; exact ⟨[], a, rfl, by simp⟩
  | cons b l ih =>
    intro a
    unfold bubbleFrom
    by_cases h : b.1 > a.1
    · rw [if_pos h]
      obtain ⟨l', m, h1, h2⟩ := ih a
      refine ⟨b :: l', m, by rw [h1]; rfl, fun x hx => ?_⟩
      rcases List.mem_cons.1 hx with rfl | hx
      · have : a ∈ l' ++ [m] := h1 ▸ (bubbleFrom_perm l a).mem_iff.2 List.mem_cons_self
        rcases List.mem_append.1 this with h3 | h3
        · have := h2 a h3
          omega
        · rw [List.mem_singleton] at h3
          subst h3
          omega
      · exact h2 x hx
    · rw [if_neg h]
      obtain ⟨l', m, h1, h2⟩ := ih b
      refine ⟨a :: l', m, by rw [h1]; rfl, fun x hx => ?_⟩
      rcases List.mem_cons.1 hx with rfl | hx
      · have : b ∈ l' ++ [m] := h1 ▸ (bubbleFrom_perm l b).mem_iff.2 List.mem_cons_self
        rcases List.mem_append.1 this with h3 | h3
        · have := h2 b h3
          omega
        · rw [List.mem_singleton] at h3
          subst h3
          omega
      · exact h2 x hx

theorem sortS_spec : ∀ (k : ℕ) (l : List (ℤ × ℕ)), l.length ≤ k + 1 → (sortS k l).Perm l ∧ (sortS k l).Pairwise fun x y => x.1 ≥ y.1 := by
  intro k
  induction k with
  | zero =>
    intro l hl
    refine ⟨List.Perm.refl _, ?_⟩
    show l.Pairwise _
    match l, hl with
    | [], _ => exact List.Pairwise.nil
    | [a], _ => exact List.pairwise_singleton _ _
  | succ k ih =>
    intro l hl
    cases l with
    | nil =>
      have := ih [] (by simp)
      have hn : sortS k [] = [] := this.1.eq_nil
      have : sortS (k + 1) [] = [] := by
        unfold sortS
        simp [bubble, hn]
      rw [this]
      exact ⟨List.Perm.refl _, List.Pairwise.nil⟩
    | cons a l =>
      obtain ⟨l', m, h1, h2⟩ := bubbleFrom_last l a
      have hp := bubbleFrom_perm l a
      have e1 : sortS (k + 1) (a :: l) = sortS k l' ++ [m] := by
        show sortS k (bubbleFrom a l).dropLast ++ (bubbleFrom a l).getLast?.toList = _
        rw [h1]
        simp
      have hlen : l'.length ≤ k + 1 := by
        have := hp.length_eq
        rw [h1] at this
        simp only [List.length_append, List.length_cons, List.length_nil] at this hl
        omega
      obtain ⟨i1, i2⟩ := ih l' hlen
      rw [e1]
      refine ⟨(i1.append_right [m]).trans (h1 ▸ hp), List.pairwise_append.2 ⟨i2, List.pairwise_singleton _ _, fun x hx y hy => ?_⟩⟩
      rw [List.mem_singleton] at hy
      subst hy
      exact h2 x (i1.mem_iff.1 hx)

/-! ## Scattering the exponents -/

/-- Writing values to distinct places of an array. -/
theorem scatter (keys : List ℕ) (hk : keys.Nodup) : ∀ (e tc : List ℕ), keys.length = e.length → (∀ k ∈ keys, k < tc.length) →
    ((keys.zip e).foldl (fun (tc : List ℕ) oe => tc.set oe.1 oe.2) tc).length = tc.length ∧
    (keys.map fun k => ((keys.zip e).foldl (fun (tc : List ℕ) oe => tc.set oe.1 oe.2) tc).getD k 0) = e ∧
    ∀ j, j ∉ keys → ((keys.zip e).foldl (fun (tc : List ℕ) oe => tc.set oe.1 oe.2) tc).getD j 0 = tc.getD j 0 := by
  induction keys with
  | nil =>
    intro e tc hl _
    have : e = [] := List.length_eq_zero_iff.1 hl.symm
    subst this
    exact ⟨rfl, rfl, fun j _ => rfl⟩
  | cons k keys ih =>
    intro e tc hl hlt
    cases e with
    | nil => cases hl
    | cons x e =>
      obtain ⟨hk1, hk2⟩ := List.nodup_cons.1 hk
      obtain ⟨i1, i2, i3⟩ := ih hk2 e (tc.set k x) (by simpa using hl) (fun j hj => by
        rw [List.length_set]; exact hlt j (List.mem_cons_of_mem _ hj))
      rw [List.zip_cons_cons, List.foldl_cons]
      dsimp only
      refine ⟨i1.trans (List.length_set ..), ?_, fun j hj => ?_⟩
      · rw [List.map_cons, i2, i3 k hk1]
        congr 1
        rw [List.getD_eq_getElem?_getD, List.getElem?_set_self (hlt k List.mem_cons_self)]
        rfl
      · rw [i3 j (fun h => hj (List.mem_cons_of_mem _ h))]
        have : k ≠ j := fun h => hj (h ▸ List.mem_cons_self)
        rw [List.getD_eq_getElem?_getD, List.getD_eq_getElem?_getD, List.getElem?_set_ne this]

theorem foldl_sub {α : Type*} (F : α → Vec n) (l : List α) (p : Vec n) :
    l.foldl (fun p q => p - F q) p = p - (l.map F).sum := by
  induction l generalizing p with
  | nil => simp
  | cons a l ih => rw [List.foldl_cons, ih, List.map_cons, List.sum_cons]; abel

theorem foldl_add' {α : Type*} (F : α → Vec n) (l : List α) (p : Vec n) :
    l.foldl (fun p q => p + F q) p = p + (l.map F).sum := by
  induction l generalizing p with
  | nil => simp
  | cons a l ih => rw [List.foldl_cons, ih, List.map_cons, List.sum_cons]; abel

/-! ## The constructor -/

theorem inner_add (a x y : Vec n) : inner a (x + y) = inner a x + inner a y := by
  unfold inner
  rw [← Finset.sum_add_distrib]
  exact Finset.sum_congr rfl fun k _ => by rw [Pi.add_apply]; ring

theorem inner_neg (a x : Vec n) : inner a (-x) = -inner a x := by
  unfold inner
  rw [← Finset.sum_neg_distrib]
  exact Finset.sum_congr rfl fun k _ => by rw [Pi.neg_apply]; ring

theorem inner_sub (a x y : Vec n) : inner a (x - y) = inner a x - inner a y := by
  rw [sub_eq_add_neg, inner_add, inner_neg]; ring

theorem inner_zero (a : Vec n) : inner a 0 = 0 := by
  unfold inner; simp

theorem inner_smul (a x : Vec n) (k : ℤ) : inner a (k • x) = k * inner a x := by
  unfold inner
  rw [Finset.mul_sum]
  exact Finset.sum_congr rfl fun j _ => by rw [Pi.smul_apply, smul_eq_mul]; ring

theorem inner_comm (a x : Vec n) : inner a x = inner x a := by
  unfold inner
  exact Finset.sum_congr rfl fun j _ => mul_comm _ _

theorem inner_lincomb (cost : Vec n) : ∀ (e : List ℕ) (fs : List (Vec n)), inner cost (lincomb e fs) = dotL e (fs.map (inner cost)) := by
  intro e
  induction e with
  | nil => intro fs; simp [lincomb, dotL, inner_zero]
  | cons x e ih =>
    intro fs
    cases fs with
    | nil => simp [lincomb, dotL, inner_zero]
    | cons f fs =>
      rw [List.map_cons, dotL_cons, ← ih fs]
      show inner cost (((x : ℤ) • f) + lincomb e fs) = _
      rw [inner_add, inner_smul]

theorem turn_neg {cost r : Vec n} (h : inner cost r ≠ 0) : inner cost (turn cost r) < 0 := by
  unfold turn
  by_cases h1 : 0 < inner cost r
  · rw [if_pos h1, inner_neg]; omega
  · rw [if_neg h1]; omega

theorem unit0_dotL (y : ℤ) (s : List ℤ) : dotL (unit0 (y :: s).length) (y :: s) = y := by
  have e : unit0 (y :: s).length = 1 :: List.replicate s.length 0 := rfl
  rw [e, dotL_cons, dotL_zero]; simp

/-- The first heap. -/
theorem vinv_start {y : ℤ} {s : List ℤ} (hs : Sorted (y :: s)) {h : VHeap}
    (hh : (Heap.empty : VHeap).add vkey (unit0 (y :: s).length, y) = some h) : VInv (y :: s) 0 h := by
  obtain ⟨h', e1, o1, m1, -⟩ := c78_add vkey (unit0 (y :: s).length, y) (Heap.empty : VHeap) (c78_empty vkey).1
  rw [hh] at e1
  cases e1
  rw [(c78_empty vkey).2] at m1
  refine ⟨o1, fun p hp => ?_, fun q f hq hc hle hlt => ?_⟩
  · rw [m1] at hp
    have : p = (unit0 (y :: s).length, y) := by simpa using hp
    subst this
    have hz : Child (y :: s) _ _ := Child.first (s := y :: s)
    obtain ⟨b1, b2, b3⟩ := child_spec hs.neg hs.sorted hs.ne hz (by simp)
    exact ⟨b1, (unit0_dotL y s).symm, b2, hs.neg y List.mem_cons_self⟩
  · have hd := dotL_le hs.neg hq
    have hsum : q.sum = 0 := by omega
    cases hc with
    | first => rw [m1, unit0_dotL]; exact Multiset.mem_cons_self _ _
    | bump x e hne => exact absurd hsum hne
    | move _ _ d hne _ => exact absurd hsum hne

theorem lists_start {s : List ℤ} (hs : Sorted s) : Lists s 0 [List.replicate s.length 0] := by
  refine ⟨List.nodup_singleton _, fun e => ?_⟩
  rw [List.mem_singleton]
  constructor
  · rintro rfl
    exact ⟨by simp, dotL_zero _ _⟩
  · rintro ⟨h1, h2⟩
    have := dotL_le hs.neg h1
    have h3 : e.sum = 0 := by omega
    rw [sum_eq_zero h3, h1]

theorem foldl_coefficient (dots : List ℤ) (x : ℤ) :
    dots.foldl (fun x s => if s > 0 then x * -1 else x) x = x * (-1) ^ (dots.filter fun s => 0 < s).length := by
  induction dots generalizing x with
  | nil => simp
  | cons d dots ih =>
    rw [List.foldl_cons, ih]
    by_cases h : d > 0
    · rw [if_pos h, List.filter_cons_of_pos (by simpa using h), List.length_cons, pow_succ]; ring
    · rw [if_neg h, List.filter_cons_of_neg (by simpa using h)]

theorem foldl_numer (dots : List ℤ) (x : ℤ) :
    dots.foldl (fun x s => if s > 0 then x - s else x) x = x - (dots.filter fun s => 0 < s).sum := by
  induction dots generalizing x with
  | nil => simp
  | cons d dots ih =>
    rw [List.foldl_cons, ih]
    by_cases h : d > 0
    · rw [if_pos h, List.filter_cons_of_pos (by simpa using h), List.sum_cons]; ring
    · rw [if_neg h, List.filter_cons_of_neg (by simpa using h)]

theorem inner_list_sum (cost : Vec n) (l : List (Vec n)) : inner cost l.sum = (l.map (inner cost)).sum := by
  induction l with
  | nil => exact inner_zero _
  | cons a l ih => rw [List.sum_cons, inner_add, ih, List.map_cons, List.sum_cons]

theorem zip_map_self {α β γ : Type*} (f : α → γ) (l : List α) (l' : List β) :
    (l.map f).zip (l.zip l') = (l.zip l').map fun q => (f q.1, q) := by
  induction l generalizing l' with
  | nil => rfl
  | cons a l ih =>
    cases l' with
    | nil => rfl
    | cons b l' => simp [ih]

theorem getD_lt {α : Type*} (l : List α) (d : α) {i : ℕ} (h : i < l.length) : l.getD i d = l[i] := by
  rw [List.getD_eq_getElem?_getD, List.getElem?_eq_getElem h]; rfl

theorem zip_sum {α : Type*} [Inhabited α] {M : Type*} [AddCommMonoid M] (G : α → ℕ → M) (l : List α) (l' : List ℕ) (h : l.length = l'.length) :
    ((l.zip l').map fun q => G q.1 q.2).sum = ((List.range l.length).map fun j => G (l.getD j default) (l'.getD j 0)).sum := by
  congr 1
  apply List.ext_getElem
  · simp [h]
  · intro i h1 h2
    simp only [List.length_map, List.length_range] at h2
    simp only [List.getElem_map, List.getElem_zip, List.getElem_range]
    rw [getD_lt _ _ h2, getD_lt _ _ (h ▸ h2)]

theorem map_getD_range {α : Type*} (l : List α) (d : α) : (List.range l.length).map (fun j => l.getD j d) = l := by
  apply List.ext_getElem
  · simp
  · intro i h1 h2
    rw [List.getElem_map, List.getElem_range, getD_lt _ _ h2]

theorem zipWith_map_smul (order : List ℕ) (a : ℕ → ℕ) (f : ℕ → Vec n) :
    lincomb (order.map a) (order.map f) = (order.map fun j => ((a j : ℕ) : ℤ) • f j).sum := by
  unfold lincomb
  congr 1
  induction order with
  | nil => rfl
  | cons j order ih => simp

/-- **The constructor.** A cone with a lattice point and rays of non-zero cost: the object stands for the turned cone. -/
theorem mkInfo_spec (cost : Vec n) (C : OffCone n) (pt : Vec n) (rest : List (Vec n)) (hp : C.points = pt :: rest) (hr : C.rays ≠ [])
    (h0 : ∀ r ∈ C.rays, inner cost r ≠ 0) (hc : C.coefficient = 1 ∨ C.coefficient = -1) :
    ∃ c fs, mkInfo cost C = some c ∧ CInv (C.coefficient * turnSign cost C.rays) c ∧ c.expansion = 0 ∧
      fs.Perm (C.rays.map (turn cost)) ∧ StandsFor cost c (apex cost pt C.rays) fs := by
  obtain ⟨r0, rs, hrs⟩ := List.exists_cons_of_ne_nil hr
  set vals : List ℤ := (C.rays.map fun r => inner cost r).map fun s => if s > 0 then -1 * s else s with hvals
  set sorted := sortS (C.rays.length - 1) (vals.zip (List.range C.rays.length)) with hsorted
  have hlen1 : (vals.zip (List.range C.rays.length)).length = C.rays.length := by simp [hvals]
  obtain ⟨s1, s2⟩ := sortS_spec (C.rays.length - 1) (vals.zip (List.range C.rays.length)) (by rw [hlen1]; omega)
  rw [← hsorted] at s1 s2
  have hturn : ∀ r, (if inner cost r > 0 then -1 * inner cost r else inner cost r) = inner cost (turn cost r) := by
    intro r
    unfold turn
    by_cases h : inner cost r > 0
    · rw [if_pos h, if_pos h, inner_neg]; ring
    · rw [if_neg h, if_neg h]
  have hvals2 : vals = C.rays.map fun r => inner cost (turn cost r) := by
    rw [hvals, List.map_map]
    exact List.map_congr_left fun r _ => hturn r
  have hslen : sorted.length = C.rays.length := s1.length_eq.trans hlen1
  have hord : (sorted.map (·.2)).Perm (List.range C.rays.length) := by
    have := s1.map (·.2)
    rwa [show (vals.zip (List.range C.rays.length)).map (·.2) = List.range C.rays.length from List.map_snd_zip (by simp [hvals])] at this
  have hsv : sorted.map (·.1) = (sorted.map (·.2)).map fun j => inner cost (turn cost (C.rays.getD j 0)) := by
    rw [List.map_map]
    apply List.map_congr_left
    rintro ⟨v, j⟩ hx
    have hx' := s1.mem_iff.1 hx
    obtain ⟨i, hi, he⟩ := List.getElem_of_mem hx'
    rw [List.getElem_zip, List.getElem_range] at he
    cases he
    rw [hlen1] at hi
    simp only [Function.comp_apply, hvals2, List.getElem_map]
    rw [getD_lt _ _ hi]
  have hneg : ∀ y ∈ sorted.map (·.1), y < 0 := by
    intro y hy
    rw [hsv] at hy
    obtain ⟨j, hj, rfl⟩ := List.mem_map.1 hy
    have hj' := List.mem_range.1 (hord.mem_iff.1 hj)
    rw [getD_lt _ _ hj']
    exact turn_neg (h0 _ (List.getElem_mem _))
  have hsne : sorted.map (·.1) ≠ [] := by
    intro hcon
    have : (sorted.map (·.1)).length = 0 := by rw [hcon]; rfl
    rw [List.length_map, hslen, hrs] at this
    simp at this
  have hS : Sorted (sorted.map (·.1)) := ⟨hneg, by rw [List.pairwise_map]; exact s2, hsne⟩
  have hlen2 : (sorted.map (·.1)).length = C.rays.length := by rw [List.length_map, hslen]
  obtain ⟨y, s', hys⟩ := List.exists_cons_of_ne_nil hsne
  obtain ⟨heap, e1, -⟩ := c78_add vkey (unit0 (y :: s').length, y) (Heap.empty : VHeap) (c78_empty vkey).1
  have hzero : (List.replicate C.rays.length 0).set 0 1 = unit0 (y :: s').length := by
    unfold unit0; rw [← hys, hlen2]
  have hmk : mkInfo cost C = some {
      coefficient := (C.rays.map fun r => inner cost r).foldl (fun x s => if s > 0 then x * -1 else x) C.coefficient
      numer := (C.rays.map fun r => inner cost r).foldl (fun x s => if s > 0 then x - s else x) (inner pt cost)
      point := pt
      rays := C.rays
      signs := (C.rays.map fun r => inner cost r).map fun s => if s > 0 then 1 else -1
      svals := y :: s'
      order := sorted.map (·.2)
      zeroFlag := (C.rays.map fun r => inner cost r).any (· == 0)
      heap := heap
      vectors := [List.replicate C.rays.length 0]
      expansion := 0
      current := (C.rays.map fun r => inner cost r).foldl (fun x s => if s > 0 then x - s else x) (inner pt cost) } := by
    unfold mkInfo
    rw [hp, hrs]
    dsimp only
    rw [← hrs, ← hvals, ← hsorted, hys]
    dsimp only
    rw [hzero, e1]
  refine ⟨_, (sorted.map (·.2)).map fun j => turn cost (C.rays.getD j 0), hmk, ?_, rfl, ?_, ?_⟩
  · refine ⟨hys ▸ hS, ?_, ?_, vinv_start (hys ▸ hS) e1, le_rfl, ?_, by simp, ?_, by ring⟩
    · show List.any _ _ = false
      rw [List.any_eq_false]
      intro x hx
      obtain ⟨r, hr, rfl⟩ := List.mem_map.1 hx
      simpa using h0 r hr
    · unfold turnSign
      rcases hc with h | h <;> rw [h] <;> rcases neg_one_pow_eq_or ℤ (C.rays.filter fun r => 0 < inner cost r).length with h' | h' <;> rw [h'] <;> simp
    · have := lists_start (hys ▸ hS : Sorted (y :: s'))
      rwa [show (y :: s').length = C.rays.length by rw [← hys, hlen2]] at this
    · simp only [List.length_singleton, Nat.cast_one, mul_one]
      rw [foldl_coefficient, List.filter_map, List.length_map]
      rfl
  · have h1 : (List.range C.rays.length).map (fun j => turn cost (C.rays.getD j 0)) = C.rays.map (turn cost) := by
      conv_rhs => rw [← map_getD_range C.rays 0]
      rw [List.map_map]
      rfl
    rw [← h1]
    exact hord.map _
  · refine ⟨?_, ?_, fun e he => ?_⟩
    · show y :: s' = _
      rw [← hys, hsv]
      exact (List.map_map (f := fun j => turn cost (C.rays.getD j 0)) (g := inner cost)).symm
    · show List.foldl _ _ _ = _
      rw [foldl_numer, apex, inner_sub, inner_list_sum, inner_comm, List.filter_map]
      rfl
    · rw [List.length_map] at he
      have hnd : (sorted.map (·.2)).Nodup := hord.nodup_iff.2 List.nodup_range
      obtain ⟨t1, t2, -⟩ := scatter (sorted.map (·.2)) hnd e (List.replicate C.rays.length 0) he.symm (by
        intro k hk
        rw [List.length_replicate]
        exact List.mem_range.1 (hord.mem_iff.1 hk))
      set coeffs := ((sorted.map (·.2)).zip e).foldl (fun (tc : List ℕ) oe => tc.set oe.1 oe.2) (List.replicate C.rays.length 0) with hcoeffs
      rw [List.length_replicate] at t1
      unfold integralPoint
      dsimp only
      rw [← hcoeffs]
      have hbase : ((C.rays.map fun r => inner cost r).map fun s => if s > 0 then (1 : ℤ) else -1) = C.rays.map fun r => if inner cost r > 0 then (1 : ℤ) else -1 := by
        rw [List.map_map]; rfl
      rw [hbase]
      have h1 : ((C.rays.map fun r => if inner cost r > 0 then (1 : ℤ) else -1).zip C.rays).foldl (fun p sr => if sr.1 > 0 then p - sr.2 else p) pt =
          apex cost pt C.rays := by
        unfold apex
        generalize C.rays = l
        generalize pt = p
        induction l generalizing p with
        | nil => simp
        | cons r l ih =>
          rw [List.map_cons, List.zip_cons_cons, List.foldl_cons, ih]
          dsimp only
          by_cases h : inner cost r > 0
          · rw [if_pos h, if_pos (by decide), List.filter_cons_of_pos (by simpa using h), List.sum_cons]
            abel
          · rw [if_neg h, if_neg (by decide), List.filter_cons_of_neg (by simpa using h)]
      rw [h1, zip_map_self, List.foldl_map]
      have h2 : (fun (p : Vec n) (q : Vec n × ℕ) => fun j => p j - (if inner cost q.1 > 0 then (1 : ℤ) else -1) * q.1 j * (q.2 : ℤ)) =
          fun p q => p + (q.2 : ℤ) • turn cost q.1 := by
        funext p q j
        unfold turn
        by_cases h : inner cost q.1 > 0
        · rw [if_pos h, if_pos h, Pi.add_apply, Pi.smul_apply, Pi.neg_apply, smul_eq_mul]; ring
        · rw [if_neg h, if_neg h, Pi.add_apply, Pi.smul_apply, smul_eq_mul]; ring
      have h3 := zip_sum (fun (r : Vec n) (c : ℕ) => (c : ℤ) • turn cost r) C.rays coeffs t1.symm
      have h4 := (hord.map fun j => ((coeffs.getD j 0 : ℕ) : ℤ) • turn cost (C.rays.getD j 0)).sum_eq
      rw [h2, foldl_add', h3]
      conv_rhs => rw [← t2]
      rw [zipWith_map_smul]
      exact congrArg _ h4.symm

end Verif.Digging

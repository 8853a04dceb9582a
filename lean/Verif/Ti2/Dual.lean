import Verif.Ti2.Count

/-!
# Dualization (C84)
-/

namespace Verif.Ti2

open Verif.Barvinok Verif.Barvinok.Spec Verif.Brion Verif.Regular Verif.ExpSubst

variable {n : ℕ}

/-- **Specification.** The polar cone of the cone generated by the vectors. -/
def Polar (R : List (Vec n)) : Set (Fin n → ℝ) := {y | ∀ r ∈ R, dot r y ≤ 0}

/-- **Specification.** The cone generated by `F` and the lines of `S`. -/
def generatedWith (F S : List (Vec n)) : Set (Fin n → ℝ) :=
  {y | ∃ u ∈ generated F, ∃ w ∈ Submodule.span ℝ (Set.range fun i : Fin S.length => toR (S.get i)), y = u + w}

/-! ## The lifting -/

/-- The vector of slacks and coordinates. -/
noncomputable def lift (R : List (Vec n)) (y : Fin n → ℝ) : Fin (R.length + n) → ℝ := Fin.append (fun i => -dot (R.get i) y) y

/-- The coordinates. -/
def proj {H d : ℕ} (x : Fin (H + d) → ℝ) : Fin d → ℝ := fun j => x (Fin.natAdd H j)

variable {R : List (Vec n)}

theorem proj_lift (y : Fin n → ℝ) : proj (lift R y) = y := by funext j; simp [proj, lift]

theorem lift_add (y z : Fin n → ℝ) : lift R (y + z) = lift R y + lift R z := by
  funext j
  refine Fin.addCases (fun j => ?_) (fun j => ?_) j
  · simp only [lift, Fin.append_left, Pi.add_apply, dot_add']; ring
  · simp only [lift, Fin.append_right, Pi.add_apply]

theorem lift_smul (c : ℝ) (y : Fin n → ℝ) : lift R (c • y) = c • lift R y := by
  funext j
  refine Fin.addCases (fun j => ?_) (fun j => ?_) j
  · simp only [lift, Fin.append_left, Pi.smul_apply, dot_smul', smul_eq_mul]; ring
  · simp only [lift, Fin.append_right, Pi.smul_apply]

theorem lift_neg (y : Fin n → ℝ) : lift R (-y) = -lift R y := by
  rw [← neg_one_smul ℝ, lift_smul, neg_one_smul]

theorem lift_sub (y z : Fin n → ℝ) : lift R (y - z) = lift R y - lift R z := by rw [sub_eq_add_neg, lift_add, lift_neg, ← sub_eq_add_neg]

/-- The cone given to 4ti2. -/
def Lifted (R : List (Vec n)) : Set (Fin (R.length + n) → ℝ) := ConeOf (dualMatrix R) (slackBits R.length n)

theorem dualMatrix_slack (i j : Fin R.length) : dualMatrix R i (Fin.castAdd n j) = if j = i then 1 else 0 := by
  unfold dualMatrix setDiagonal
  by_cases h : j = i
  · rw [if_pos h, if_pos (by rw [h])]
  · rw [if_neg h, if_neg (by rwa [Fin.castAdd_inj])]
    simp [rayArray]

theorem dualMatrix_rest (i : Fin R.length) (k : Fin n) : dualMatrix R i (Fin.natAdd R.length k) = R.get i k := by
  unfold dualMatrix setDiagonal
  rw [if_neg (by
    intro h
    have := congrArg Fin.val h
    rw [Fin.val_natAdd, Fin.val_castAdd] at this
    omega)]
  simp [rayArray]

theorem dual_row_sum (x : Fin (R.length + n) → ℝ) (i : Fin R.length) :
    ∑ j, (dualMatrix R i j : ℝ) * x j = x (Fin.castAdd n i) + dot (R.get i) (proj x) := by
  rw [Fin.sum_univ_add]
  congr 1
  · rw [Finset.sum_eq_single i]
    · rw [dualMatrix_slack, if_pos rfl]; simp
    · intro j _ hj
      rw [dualMatrix_slack, if_neg hj]; simp
    · intro h; exact absurd (Finset.mem_univ _) h
  · simp only [dualMatrix_rest]
    rfl

theorem mem_lifted_iff (x : Fin (R.length + n) → ℝ) : x ∈ Lifted R ↔ x = lift R (proj x) ∧ proj x ∈ Polar R := by
  have hb : ∀ j : Fin R.length, slackBits R.length n (Fin.castAdd n j) = true := fun j => by simp [slackBits]
  have hb' : ∀ j : Fin n, slackBits R.length n (Fin.natAdd R.length j) = false := fun j => by simp [slackBits]
  constructor
  · rintro ⟨h1, h2⟩
    have h3 : ∀ i, x (Fin.castAdd n i) = -dot (R.get i) (proj x) := by
      intro i
      have := h1 i
      rw [dual_row_sum] at this
      linarith
    refine ⟨?_, fun r hr => ?_⟩
    · funext j
      refine Fin.addCases (fun j => ?_) (fun j => ?_) j
      · rw [h3]; simp [lift]
      · simp [lift, proj]
    · obtain ⟨i, rfl⟩ := List.get_of_mem hr
      have := h2 _ (hb i)
      rw [h3] at this
      linarith
  · rintro ⟨h1, h2⟩
    have h3 : ∀ i, x (Fin.castAdd n i) = -dot (R.get i) (proj x) := by
      intro i
      conv_lhs => rw [h1]
      simp [lift]
    refine ⟨fun i => ?_, fun j => ?_⟩
    · rw [dual_row_sum, h3]; ring
    · refine Fin.addCases (fun j _ => ?_) (fun j hj => ?_) j
      · rw [h3]
        have := h2 _ (List.get_mem R j)
        linarith
      · rw [hb'] at hj; cases hj

theorem lift_mem {y : Fin n → ℝ} (h : y ∈ Polar R) : lift R y ∈ Lifted R := by
  rw [mem_lifted_iff, proj_lift]
  exact ⟨rfl, h⟩

theorem lift_mem_iff {y : Fin n → ℝ} : lift R y ∈ Lifted R ↔ y ∈ Polar R :=
  ⟨fun h => by simpa [proj_lift] using ((mem_lifted_iff _).1 h).2, lift_mem⟩

theorem lift_lin_iff {y : Fin n → ℝ} : lift R y ∈ Lineality (Lifted R) ↔ y ∈ Lineality (Polar R) := by
  show (_ ∧ _) ↔ (_ ∧ _)
  rw [← lift_neg, lift_mem_iff, lift_mem_iff]

theorem lift_extreme_iff {y : Fin n → ℝ} : IsExtremeRay (Lifted R) (lift R y) ↔ IsExtremeRay (Polar R) y := by
  unfold IsExtremeRay
  rw [← lift_neg, lift_mem_iff, lift_mem_iff]
  refine and_congr_right fun _ => and_congr_right fun _ => ?_
  constructor
  · intro h u hu w hw e
    obtain ⟨c, hc, hl⟩ := h (lift R u) (lift_mem hu) (lift R w) (lift_mem hw) (by rw [← lift_add, e])
    rw [← lift_smul, ← lift_sub, lift_lin_iff] at hl
    exact ⟨c, hc, hl⟩
  · intro h u hu w hw e
    obtain ⟨eu, hu'⟩ := (mem_lifted_iff u).1 hu
    obtain ⟨ew, hw'⟩ := (mem_lifted_iff w).1 hw
    have e' : proj u + proj w = y := by
      rw [← proj_lift (R := R) y, ← e]
      rfl
    obtain ⟨c, hc, hl⟩ := h _ hu' _ hw' e'
    refine ⟨c, hc, ?_⟩
    rw [eu, ← lift_smul, ← lift_sub, lift_lin_iff]
    exact hl

/-! ## The lists -/

/-- The coordinates of an integer vector. -/
def projZ {H d : ℕ} (x : Fin (H + d) → ℤ) : Fin d → ℤ := fun j => x (Fin.natAdd H j)

theorem foldl_cons_eq {α β : Type} (f : α → β) : ∀ (l : List α) (acc : List β), l.foldl (fun acc r => f r :: acc) acc = (l.map f).reverse ++ acc := by
  intro l
  induction l with
  | nil => intro acc; rfl
  | cons a l ih => intro acc; rw [List.foldl_cons, ih]; simp

theorem listVectors_eq {H d : ℕ} (rows : List (Fin (H + d) → ℤ)) : listVectors rows = (rows.map projZ).reverse := by
  unfold listVectors
  have := foldl_cons_eq (projZ (H := H) (d := d)) rows []
  rw [List.append_nil] at this
  exact this

theorem toR_lift {r : Fin (R.length + n) → ℤ} (h : toR r ∈ Lifted R) : toR r = lift R (toR (projZ r)) := ((mem_lifted_iff _).1 h).1

theorem range_get {d : ℕ} (l : List (Fin d → ℤ)) : (Set.range fun i : Fin l.length => toR (l.get i)) = {x | ∃ r ∈ l, x = toR r} := by
  ext x
  constructor
  · rintro ⟨i, rfl⟩; exact ⟨_, List.get_mem _ _, rfl⟩
  · rintro ⟨r, hr, rfl⟩
    obtain ⟨i, rfl⟩ := List.get_of_mem hr
    exact ⟨i, rfl⟩

theorem independent_reverse {d : ℕ} (l : List (Fin d → ℤ)) (h : LinearIndependent ℝ fun i : Fin l.length => toR (l.get i)) :
    LinearIndependent ℝ fun i : Fin l.reverse.length => toR (l.reverse.get i) := by
  have e := h.comp (fun i : Fin l.reverse.length => (Fin.cast List.length_reverse i).rev) fun i j hij => by
    have := Fin.rev_injective hij
    exact Fin.cast_injective _ this
  convert e using 1
  funext i
  simp only [Function.comp, List.get_eq_getElem, List.getElem_reverse]
  congr 2
  simp [Fin.rev]
  omega

theorem lift_zero : lift R (0 : Fin n → ℝ) = 0 := by
  have := lift_smul (R := R) 0 0
  rw [zero_smul, zero_smul] at this
  exact this

/-- The coordinates as a linear map. -/
def projL (H d : ℕ) : (Fin (H + d) → ℝ) →ₗ[ℝ] (Fin d → ℝ) where
  toFun := proj
  map_add' _ _ := rfl
  map_smul' _ _ := rfl

/-- **The ray list of the polar cone.** -/
theorem rayList_polar {rays sub : List (Fin (R.length + n) → ℤ)} (h : IsRayList (Lifted R) rays sub) :
    IsRayList (Polar R) (listVectors rays) (listVectors sub) := by
  have hr : ∀ r ∈ rays, toR r = lift R (toR (projZ r)) := fun r hr => toR_lift (h.extreme r hr).1
  have hs : ∀ s ∈ sub, toR s ∈ Lineality (Lifted R) := fun s hs => by
    obtain ⟨i, rfl⟩ := List.get_of_mem hs
    exact (h.basis _).2 (Submodule.subset_span ⟨i, rfl⟩)
  have hsl : ∀ s ∈ sub, toR s = lift R (toR (projZ s)) := fun s hs' => toR_lift (hs s hs').1
  have hlin : ∀ x, x ∈ Lineality (Lifted R) → x = lift R (proj x) := fun x hx => ((mem_lifted_iff x).1 hx.1).1
  rw [listVectors_eq, listVectors_eq]
  refine ⟨fun r hr' => ?_, fun e he => ?_, ?_, fun x => ?_, ?_⟩
  · rw [List.mem_reverse, List.mem_map] at hr'
    obtain ⟨s, hs', rfl⟩ := hr'
    rw [← lift_extreme_iff, ← hr s hs']
    exact h.extreme s hs'
  · obtain ⟨r, hr', c, hc, hl⟩ := h.all _ (lift_extreme_iff.2 he)
    refine ⟨projZ r, List.mem_reverse.2 (List.mem_map_of_mem hr'), c, hc, ?_⟩
    rwa [hr r hr', ← lift_smul, ← lift_sub, lift_lin_iff] at hl
  · rw [List.pairwise_reverse, List.pairwise_map]
    refine List.Pairwise.imp_of_mem ?_ h.once
    intro r r' hr1 hr2 hp c hc hl
    refine hp c⁻¹ (inv_pos.2 hc) ?_
    rw [hr r hr1, hr r' hr2, ← lift_smul, ← lift_sub, lift_lin_iff]
    have h1 : toR (projZ r) - c⁻¹ • toR (projZ r') = (-c⁻¹) • (toR (projZ r') - c • toR (projZ r)) := by
      rw [smul_sub, smul_smul, neg_mul, inv_mul_cancel₀ hc.ne', neg_smul, neg_smul, one_smul]
      abel
    rw [h1]
    have hsm : ∀ (t : ℝ), 0 ≤ t → ∀ z ∈ Polar R, t • z ∈ Polar R := fun t ht z hz q hq => by
      rw [dot_smul']; exact mul_nonpos_of_nonneg_of_nonpos ht (hz q hq)
    constructor
    · rw [neg_smul, ← smul_neg]
      exact hsm _ (inv_nonneg.2 hc.le) _ hl.2
    · rw [neg_smul, neg_neg]
      exact hsm _ (inv_nonneg.2 hc.le) _ hl.1
  · rw [range_get]
    have hset : {x | ∃ r ∈ (sub.map projZ).reverse, x = toR r} = projL R.length n '' {x | ∃ r ∈ sub, x = toR r} := by
      ext z
      constructor
      · rintro ⟨r, hr', rfl⟩
        rw [List.mem_reverse, List.mem_map] at hr'
        obtain ⟨s, hs', rfl⟩ := hr'
        exact ⟨toR s, ⟨s, hs', rfl⟩, rfl⟩
      · rintro ⟨_, ⟨s, hs', rfl⟩, rfl⟩
        exact ⟨projZ s, List.mem_reverse.2 (List.mem_map_of_mem hs'), rfl⟩
    rw [hset, ← Submodule.map_span, Submodule.mem_map, ← range_get]
    constructor
    · intro hx
      exact ⟨lift R x, (h.basis _).1 (lift_lin_iff.2 hx), proj_lift x⟩
    · rintro ⟨z, hz, rfl⟩
      have hz' := (h.basis z).2 hz
      have := hlin z hz'
      rw [this, lift_lin_iff] at hz'
      exact hz'
  · refine independent_reverse _ ?_
    have hi := h.independent
    rw [linearIndependent_iff'] at hi
    have hlen : (sub.map (projZ (H := R.length) (d := n))).length = sub.length := List.length_map _
    have : LinearIndependent ℝ fun i : Fin sub.length => toR (projZ (sub.get i)) := by
      rw [linearIndependent_iff']
      intro s g hg i hi'
      refine hi s g ?_ i hi'
      have h1 : ∑ j ∈ s, g j • toR (sub.get j) = lift R (∑ j ∈ s, g j • toR (projZ (sub.get j))) := by
        clear hg hi'
        induction s using Finset.induction_on with
        | empty => rw [Finset.sum_empty, Finset.sum_empty, lift_zero]
        | insert a t ha ih => rw [Finset.sum_insert ha, Finset.sum_insert ha, ih, lift_add, lift_smul, ← hsl _ (List.get_mem _ _)]
      rw [h1, hg, lift_zero]
    have e := this.comp (Fin.cast hlen) (Fin.cast_injective hlen)
    convert e using 1
    funext i
    simp

/-! ## Polarity -/

/-- The lifting of an integer vector. -/
def liftZ (R : List (Vec n)) (r : Vec n) : Fin (R.length + n) → ℤ := Fin.append (fun i => -∑ k, R.get i k * r k) r

theorem toR_liftZ (r : Vec n) : toR (liftZ R r) = lift R (toR r) := by
  funext j
  refine Fin.addCases (fun j => ?_) (fun j => ?_) j
  · simp only [toR, liftZ, lift, Fin.append_left, dot]
    push_cast
    rfl
  · simp [toR, liftZ, lift]

theorem sum_mem_generated {ι : Type} [Fintype ι] (L : List (Vec n)) (g : ι → Vec n) (hg : ∀ i, g i ∈ L) (c : ι → ℝ) (hc : ∀ i, 0 ≤ c i) :
    ∑ i, c i • toR (g i) ∈ generated L := by
  rw [generated_iff]
  intro y hy
  have : ∑ k, (∑ i, c i • toR (g i)) k * y k = ∑ i, c i * dot (g i) y := by
    simp only [Finset.sum_apply, Finset.sum_mul, dot, Finset.mul_sum]
    rw [Finset.sum_comm]
    refine Finset.sum_congr rfl fun i _ => Finset.sum_congr rfl fun k _ => ?_
    rw [Pi.smul_apply, smul_eq_mul]
    unfold toR
    ring
  rw [this]
  exact Finset.sum_nonpos fun i _ => mul_nonpos_of_nonneg_of_nonpos (hc i) (hy _ (hg i))

theorem dot_comm_toR (f g : Vec n) : dot f (toR g) = dot g (toR f) := by
  unfold dot toR
  exact Finset.sum_congr rfl fun k _ => mul_comm _ _

theorem sum_dot (f : Vec n) (u : Fin n → ℝ) : ∑ k, u k * toR f k = dot f u := Finset.sum_congr rfl fun _ _ => mul_comm _ _

theorem lin_polar_iff (x : Fin n → ℝ) : x ∈ Lineality (Polar R) ↔ ∀ r ∈ R, dot r x = 0 := by
  constructor
  · rintro ⟨h1, h2⟩ r hr
    have h3 := h2 r hr
    rw [dot_neg] at h3
    exact le_antisymm (h1 r hr) (by linarith)
  · intro h
    exact ⟨fun r hr => (h r hr).le, fun r hr => by rw [dot_neg, h r hr, neg_zero]⟩

/-- The polar cone is generated by the listed rays and lines. -/
theorem polar_generated {F S : List (Vec n)} (h : IsRayList (Polar R) F S) : Polar R = generatedWith F S := by
  ext y
  constructor
  · intro hy
    obtain ⟨c, hc, hl⟩ := generates' (M := dualMatrix R) (rs := slackBits R.length n) (rays := F.map (liftZ R)) (fun r hr => by
      obtain ⟨s, hs, rfl⟩ := List.mem_map.1 hr
      rw [toR_liftZ]
      exact lift_extreme_iff.2 (h.extreme s hs)) (fun e he => by
      have h1 := (mem_lifted_iff e).1 he.1
      rw [h1.1] at he
      obtain ⟨r, hr, c, hc, hl⟩ := h.all _ (lift_extreme_iff.1 he)
      refine ⟨liftZ R r, List.mem_map_of_mem hr, c, hc, ?_⟩
      rw [h1.1, toR_liftZ, ← lift_smul, ← lift_sub]
      exact lift_lin_iff.2 hl) (x := lift R y) (lift_mem hy)
    have hp : proj (combine (F.map (liftZ R)) c) = ∑ i, c i • toR ((fun i => F.get (Fin.cast (List.length_map _) i)) i) := by
      funext k
      show combine (F.map (liftZ R)) c (Fin.natAdd R.length k) = _
      rw [combine_apply, Finset.sum_apply]
      refine Finset.sum_congr rfl fun i _ => ?_
      rw [Pi.smul_apply, smul_eq_mul]
      unfold toR
      simp [liftZ]
    have hl' : y - proj (combine (F.map (liftZ R)) c) ∈ Lineality (Polar R) := by
      have h1 := (mem_lifted_iff _).1 hl.1
      have h2 : lift R y - combine (F.map (liftZ R)) c ∈ Lineality (Lifted R) := hl
      rw [h1.1, lift_lin_iff] at h2
      have h3 : proj (lift R y - combine (F.map (liftZ R)) c) = y - proj (combine (F.map (liftZ R)) c) := by
        conv_rhs => rw [← proj_lift (R := R) y]
        rfl
      rwa [h3] at h2
    refine ⟨_, hp ▸ sum_mem_generated F (fun i => F.get (Fin.cast (List.length_map _) i)) (fun i => List.get_mem _ _) c hc, _, (h.basis _).1 hl', ?_⟩
    abel
  · rintro ⟨u, hu, w, hw, rfl⟩ r hr
    rw [dot_add', ((lin_polar_iff w).1 ((h.basis w).2 hw)) r hr, add_zero]
    rw [generated_iff] at hu
    have := hu (toR r) fun f hf => by
      rw [dot_comm_toR]
      exact (h.extreme f hf).1 r hr
    rwa [sum_dot] at this

/-- **Bipolarity**: the original cone is described by the listed rays and lines as inequalities and equations. -/
theorem bipolar {F S : List (Vec n)} (h : IsRayList (Polar R) F S) (x : Fin n → ℝ) :
    x ∈ generated R ↔ (∀ f ∈ F, dot f x ≤ 0) ∧ ∀ s ∈ S, dot s x = 0 := by
  have hs : ∀ s ∈ S, toR s ∈ Lineality (Polar R) := fun s hs => by
    obtain ⟨i, rfl⟩ := List.get_of_mem hs
    exact (h.basis _).2 (Submodule.subset_span ⟨i, rfl⟩)
  rw [generated_iff]
  constructor
  · intro hx
    refine ⟨fun f hf => ?_, fun s hs' => ?_⟩
    · have := hx _ (h.extreme f hf).1
      rwa [sum_dot] at this
    · have h1 := hx _ (hs s hs').1
      have h2 := hx _ (hs s hs').2
      rw [sum_dot] at h1
      have h3 : ∑ k, x k * (-toR s) k = -dot s x := by
        rw [← sum_dot, ← Finset.sum_neg_distrib]
        exact Finset.sum_congr rfl fun k _ => by rw [Pi.neg_apply]; ring
      rw [h3] at h2
      linarith
  · rintro ⟨h1, h2⟩ y hy
    have hy' : y ∈ Polar R := hy
    rw [polar_generated h] at hy'
    obtain ⟨u, hu, w, hw, rfl⟩ := hy'
    rw [generated_iff] at hu
    have h3 := hu x h1
    have h4 : ∑ k, w k * x k = 0 := by
      clear hy
      induction hw using Submodule.span_induction with
      | mem z hz =>
        obtain ⟨i, rfl⟩ := hz
        exact h2 _ (List.get_mem _ _)
      | zero => simp
      | add z z' _ _ e e' =>
        simp only [Pi.add_apply, add_mul, Finset.sum_add_distrib, e, e', add_zero]
      | smul c z _ e =>
        simp only [Pi.smul_apply, smul_eq_mul, mul_assoc, ← Finset.mul_sum, e, mul_zero]
    have h5 : ∑ k, x k * (u + w) k = ∑ k, u k * x k + ∑ k, w k * x k := by
      rw [← Finset.sum_add_distrib]
      exact Finset.sum_congr rfl fun k _ => by rw [Pi.add_apply]; ring
    rw [h5, h4, add_zero]
    exact h3

/-! ## The simplicial case -/

/-- The facets of a simplicial cone are the extreme rays of its polar cone. -/
theorem rayList_simplicial (A F : Mat n) (d : Fin n → ℤ) (hdet : A.det ≠ 0) (hd : ∀ i, 0 < d i)
    (hAF : ∀ i j, ∑ k, A i k * F j k = if i = j then -d j else 0) (hR : ∀ r, r ∈ R ↔ ∃ i, A i = r) : IsRayList (Polar R) (List.ofFn fun i : Fin n => (F i : Vec n)) [] := by
  have hdot : ∀ i j, dot (A i) (toR (F j)) = if i = j then -(d j : ℝ) else 0 := by
    intro i j
    have : dot (A i) (toR (F j)) = ((∑ k, A i k * F j k : ℤ) : ℝ) := by unfold dot toR; push_cast; rfl
    rw [this, hAF]
    split_ifs <;> push_cast <;> rfl
  have hsep : ∀ x : Fin n → ℝ, (∀ i, dot (A i) x = 0) → x = 0 := by
    intro x hx
    by_contra h0
    have hz : ((A.map (Int.castRingHom ℝ)).mulVec x) = 0 := by
      funext i
      exact hx i
    have := Matrix.exists_mulVec_eq_zero_iff.1 ⟨x, h0, hz⟩
    rw [← RingHom.mapMatrix_apply, ← RingHom.map_det] at this
    apply hdet
    have h1 : ((A.det : ℤ) : ℝ) = 0 := this
    exact_mod_cast h1
  have hmem : ∀ x, x ∈ Polar R ↔ ∀ i, dot (A i) x ≤ 0 := by
    intro x
    constructor
    · intro h i; exact h _ ((hR _).2 ⟨i, rfl⟩)
    · intro h r hr
      obtain ⟨i, rfl⟩ := (hR r).1 hr
      exact h i
  have hlin : ∀ x, x ∈ Lineality (Polar R) ↔ x = 0 := by
    intro x
    rw [lin_polar_iff]
    constructor
    · intro h; exact hsep x fun i => h _ ((hR _).2 ⟨i, rfl⟩)
    · rintro rfl r _; simp [dot]
  have hdR : ∀ i, (0 : ℝ) < d i := fun i => by exact_mod_cast hd i
  have hF : ∀ j, toR (F j) ∈ Polar R := by
    intro j
    rw [hmem]
    intro i
    rw [hdot]
    split_ifs with h
    · have := hdR j; linarith
    · exact le_rfl
  -- a vector of the cone that is zero off `j` is a multiple of `F j`
  have hmul : ∀ u ∈ Polar R, ∀ j, (∀ i, i ≠ j → dot (A i) u = 0) → ∃ c : ℝ, 0 ≤ c ∧ u = c • toR (F j) := by
    intro u hu j hz
    refine ⟨-dot (A j) u / d j, div_nonneg (by have := (hmem u).1 hu j; linarith) (hdR j).le, ?_⟩
    rw [← sub_eq_zero]
    refine hsep _ fun i => ?_
    rw [sub_eq_add_neg, ← neg_smul, dot_move, hdot]
    by_cases h : i = j
    · subst h
      rw [if_pos rfl]
      have := (hdR i).ne'
      field_simp
      ring
    · rw [if_neg h, hz i h]; ring
  refine ⟨fun r hr => ?_, fun e he => ?_, ?_, fun x => ?_, ?_⟩
  · rw [List.mem_ofFn] at hr
    obtain ⟨j, rfl⟩ := hr
    refine ⟨hF j, fun h => ?_, fun u hu w hw e => ?_⟩
    · have := (hmem _).1 h j
      rw [dot_neg, hdot, if_pos rfl] at this
      have := hdR j
      linarith
    · obtain ⟨c, hc, rfl⟩ := hmul u hu j fun i hi => by
        have h1 := congrArg (dot (A i)) e
        rw [dot_add', hdot, if_neg hi] at h1
        have h2 := (hmem u).1 hu i
        have h3 := (hmem w).1 hw i
        linarith
      exact ⟨c, hc, by rw [sub_self, hlin]⟩
  · have hne : ∃ j, dot (A j) e ≠ 0 := by
      by_contra hn
      push Not at hn
      have := hsep e hn
      apply he.2.1
      rw [this, neg_zero, hmem]
      intro i
      simp [dot]
    obtain ⟨j, hj⟩ := hne
    have hneg : dot (A j) e < 0 := lt_of_le_of_ne ((hmem e).1 he.1 j) hj
    set a : ℝ := -dot (A j) e / d j with ha
    have hapos : 0 < a := div_pos (by linarith) (hdR j)
    have hu : a • toR (F j) ∈ Polar R := by
      rw [hmem]
      intro i
      rw [dot_smul']
      exact mul_nonpos_of_nonneg_of_nonpos hapos.le ((hmem _).1 (hF j) i)
    have hw : e - a • toR (F j) ∈ Polar R := by
      rw [hmem]
      intro i
      rw [sub_eq_add_neg, ← neg_smul, dot_move, hdot]
      by_cases h : i = j
      · subst h
        rw [if_pos rfl, ha]
        have := (hdR i).ne'
        have e1 : dot (A i) e + -(-dot (A i) e / (d i : ℝ)) * -(d i : ℝ) = 0 := by field_simp; ring
        rw [e1]
      · rw [if_neg h]
        have := (hmem e).1 he.1 i
        linarith
    obtain ⟨c, hc, hl⟩ := he.2.2 _ hu _ hw (by abel)
    rw [hlin, sub_eq_zero] at hl
    have hc0 : c ≠ 0 := by
      rintro rfl
      rw [zero_smul] at hl
      have := congrArg (dot (A j)) hl
      rw [dot_smul', hdot, if_pos rfl] at this
      have h0 : dot (A j) (0 : Fin n → ℝ) = 0 := by simp [dot]
      rw [h0] at this
      have := mul_pos hapos (hdR j)
      linarith
    refine ⟨F j, List.mem_ofFn.2 ⟨j, rfl⟩, c⁻¹ * a, mul_pos (inv_pos.2 (lt_of_le_of_ne hc hc0.symm)) hapos, ?_⟩
    rw [hlin, ← smul_smul, hl, smul_smul, inv_mul_cancel₀ hc0, one_smul, sub_self]
  · rw [List.pairwise_ofFn]
    intro i j hij c hc hl
    rw [hlin, sub_eq_add_neg, ← neg_smul] at hl
    have := congrArg (dot (A j)) hl
    rw [dot_move, hdot, hdot, if_neg hij.ne', if_pos rfl] at this
    have h0 : dot (A j) (0 : Fin n → ℝ) = 0 := by simp [dot]
    rw [h0] at this
    have := mul_pos hc (hdR j)
    linarith
  · rw [hlin, range_get]
    simp
  · have : IsEmpty (Fin ([] : List (Vec n)).length) := inferInstanceAs (IsEmpty (Fin 0))
    exact linearIndependent_empty_type

/-! ## The theorems -/

/-- **C84, dualization.** A cone given by rays only becomes its polar cone: the old rays are its facets; its rays are the extreme rays of the polar cone, each
once, and its subspace a basis of the lineality space.  The vertex is kept. -/
theorem c84_dualize (alg : Rays) (ha : RaysOk alg) (C D : GCone n) (hf : C.facets = []) (he : C.equalities = []) (h : dualizeCone alg C = .ok D) :
    D.vertex = C.vertex ∧ D.facets = C.rays ∧ D.equalities = C.subspace ∧
      IsRayList {y : Fin n → ℝ | ∀ r ∈ C.rays, dot r y ≤ 0} D.rays D.subspace := by
  unfold dualizeCone at h
  rw [if_neg (by simp [hf])] at h
  by_cases hl : C.rays.length = n
  · rw [if_pos hl] at h
    by_cases hd : (listMat C.rays).det = 0
    · have : computeDetAndFacets (⟨1, C.vertex, listMat C.rays, 0, none, 0, 0⟩ : Cone n) = none := by
        unfold computeDetAndFacets
        simp [hd]
      rw [this] at h
      cases h
    · obtain ⟨F, d, hcomp, hdp, hAF, -, -⟩ := computeDetAndFacets_some (⟨1, C.vertex, listMat C.rays, 0, none, 0, 0⟩ : Cone n) rfl hd
      rw [hcomp] at h
      simp only [Except.ok.injEq] at h
      subst h
      refine ⟨rfl, rfl, rfl, ?_⟩
      show IsRayList (Polar C.rays) (List.ofFn fun i : Fin n => (F i : Vec n)) C.equalities
      rw [he]
      refine rayList_simplicial (listMat C.rays) F d hd hdp hAF fun r => ?_
      constructor
      · intro hr
        obtain ⟨i, rfl⟩ := List.get_of_mem hr
        refine ⟨i.cast hl, ?_⟩
        unfold listMat
        rw [List.getD_eq_getElem?_getD, List.getElem?_eq_getElem (by simp)]
        rfl
      · rintro ⟨i, rfl⟩
        unfold listMat
        rw [List.getD_eq_getElem?_getD, List.getElem?_eq_getElem (by rw [hl]; exact i.2)]
        exact List.getElem_mem _
  · rw [if_neg hl] at h
    unfold dualize4ti2 at h
    rw [if_neg (by simp [hf])] at h
    by_cases hs : C.subspace ≠ []
    · rw [if_pos hs] at h; cases h
    · rw [if_neg hs] at h
      obtain rfl := Except.ok.inj h
      exact ⟨rfl, rfl, rfl, rayList_polar (ha _ _ _ _)⟩

/-- **C84, the dual cone as a set.** The points with non-positive scalar product with all of the old rays are the non-negative combinations of the new rays
plus the combinations of the new subspace; and the old cone is described by the new rays as inequalities and the new subspace as equations. -/
theorem c84_sets (alg : Rays) (ha : RaysOk alg) (C D : GCone n) (hf : C.facets = []) (he : C.equalities = []) (h : dualizeCone alg C = .ok D) :
    (∀ y : Fin n → ℝ, (∀ r ∈ C.rays, dot r y ≤ 0) ↔ y ∈ generatedWith D.rays D.subspace) ∧
    ∀ x : Fin n → ℝ, x ∈ generated C.rays ↔ (∀ f ∈ D.rays, dot f x ≤ 0) ∧ ∀ s ∈ D.subspace, dot s x = 0 := by
  obtain ⟨-, -, -, hr⟩ := c84_dualize alg ha C D hf he h
  refine ⟨fun y => ?_, fun x => bipolar hr x⟩
  rw [← polar_generated hr]
  rfl

/-- **C84, when it works.** For a cone given by rays only, the program stops exactly if there are as many rays as coordinates and they are dependent. -/
theorem c84_ends_partial (alg : Rays) (C : GCone n) (hf : C.facets = []) (hs : C.subspace = []) :
    (∃ D, dualizeCone alg C = .ok D) ↔ ¬ (C.rays.length = n ∧ ∃ y : Fin n → ℝ, y ≠ 0 ∧ ∀ r ∈ C.rays, dot r y = 0) := by
  unfold dualizeCone
  rw [if_neg (by simp [hf])]
  by_cases hl : C.rays.length = n
  · rw [if_pos hl]
    have hrow : ∀ i : Fin n, listMat C.rays i = C.rays.get (i.cast hl.symm) := by
      intro i
      unfold listMat
      rw [List.getD_eq_getElem?_getD, List.getElem?_eq_getElem (by rw [hl]; exact i.2)]
      rfl
    by_cases hd : (listMat C.rays).det = 0
    · have : computeDetAndFacets (⟨1, C.vertex, listMat C.rays, 0, none, 0, 0⟩ : Cone n) = none := by
        unfold computeDetAndFacets
        simp [hd]
      rw [this]
      refine ⟨fun ⟨D, h⟩ => (by cases h), fun h => absurd ?_ h⟩
      refine ⟨hl, ?_⟩
      have h1 : ((listMat C.rays).map (Int.castRingHom ℝ)).det = 0 := by
        rw [← RingHom.mapMatrix_apply, ← RingHom.map_det, hd, map_zero]
      obtain ⟨y, hy, hz⟩ := Matrix.exists_mulVec_eq_zero_iff.2 h1
      refine ⟨y, hy, fun r hr => ?_⟩
      obtain ⟨i, rfl⟩ := List.get_of_mem hr
      have := congrFun hz (i.cast hl)
      have e : listMat C.rays (i.cast hl) = C.rays.get i := by rw [hrow]; rfl
      unfold dot
      rw [← e]
      exact this
    · obtain ⟨F, d, hcomp, -⟩ := computeDetAndFacets_some (⟨1, C.vertex, listMat C.rays, 0, none, 0, 0⟩ : Cone n) rfl hd
      rw [hcomp]
      refine ⟨fun _ ⟨_, y, hy, hz⟩ => hd ?_, fun _ => ⟨_, rfl⟩⟩
      have : ((listMat C.rays).map (Int.castRingHom ℝ)).mulVec y = 0 := by
        funext i
        have := hz _ (List.get_mem C.rays (i.cast hl.symm))
        rw [← hrow] at this
        exact this
      have h1 := Matrix.exists_mulVec_eq_zero_iff.1 ⟨y, hy, this⟩
      rw [← RingHom.mapMatrix_apply, ← RingHom.map_det] at h1
      have h2 : (((listMat C.rays).det : ℤ) : ℝ) = 0 := h1
      exact_mod_cast h2
  · rw [if_neg hl]
    unfold dualize4ti2
    rw [if_neg (by simp [hf]), if_neg (by simp [hs])]
    exact ⟨fun _ h => hl h.1, fun _ => ⟨_, rfl⟩⟩

/-- **C84, the subspace.** It is empty exactly if the rays span the space. -/
theorem c84_subspace (alg : Rays) (ha : RaysOk alg) (C D : GCone n) (hf : C.facets = []) (he : C.equalities = []) (h : dualizeCone alg C = .ok D) :
    D.subspace = [] ↔ ∀ y : Fin n → ℝ, (∀ r ∈ C.rays, dot r y = 0) → y = 0 := by
  obtain ⟨-, -, -, hr⟩ := c84_dualize alg ha C D hf he h
  have hb := hr.basis
  have hi := hr.independent
  constructor
  · intro h0 y hy
    have h1 := (hb y).1 ((lin_polar_iff y).2 hy)
    rw [range_get, h0] at h1
    simpa using h1
  · intro h0
    by_contra hne
    have hpos : 0 < D.subspace.length := List.length_pos_iff.2 hne
    have h1 : toR (D.subspace.get ⟨0, hpos⟩) ∈ Lineality (Polar C.rays) := (hb _).2 (Submodule.subset_span ⟨⟨0, hpos⟩, rfl⟩)
    exact hi.ne_zero ⟨0, hpos⟩ (h0 _ ((lin_polar_iff _).1 h1))

/-- **C84, dualizing twice.** The second dualization gives the cone back, with its facets and equations filled in. -/
theorem c84_twice (alg : Rays) (ha : RaysOk alg) (C D : GCone n) (hf : C.facets = []) (he : C.equalities = []) (hr : C.rays ≠ [])
    (h : dualizeCone alg C = .ok D) : dualizeCone alg D = .ok { C with facets := D.rays, equalities := D.subspace } := by
  obtain ⟨h1, h2, h3, -⟩ := c84_dualize alg ha C D hf he h
  unfold dualizeCone
  rw [if_pos (by rw [h2]; exact hr)]
  unfold GCone.swap
  rw [h1, h2, h3]

/-- **C84, facets known.** A cone with facets is dualized by exchanging rays and facets; doing it again restores it. -/
theorem c84_swap (alg : Rays) (C : GCone n) (hf : C.facets ≠ []) : ∃ D, dualizeCone alg C = .ok D ∧ D.vertex = C.vertex ∧ D.rays = C.facets ∧ D.facets = C.rays ∧
    D.subspace = C.equalities ∧ D.equalities = C.subspace ∧ (C.rays ≠ [] → dualizeCone alg D = .ok C) := by
  refine ⟨C.swap, ?_, rfl, rfl, rfl, rfl, rfl, fun hr => ?_⟩
  · unfold dualizeCone; rw [if_pos hf]
  · have hr' : C.swap.facets ≠ [] := hr
    unfold dualizeCone
    rw [if_pos hr']
    rfl

end Verif.Ti2

import Verif.Lawrence.Simplex

/-! C49: termination of the search for a perturbation. -/

namespace Latte.Lawrence

/-- value of a ray as a polynomial: `∑ r_i t^i` -/
def rayAt (t : Int) : List Int → Int
  | [] => 0
  | x :: xs => x + t * rayAt t xs

theorem dot_moment (t : Int) (r : List Int) : ∀ (n : Nat) (p : Int), r.length ≤ n →
    dot (momentLoop t n p) r = (if t % 2 ≠ 0 then -1 else 1) * (p * rayAt t r) := by
  induction r with
  | nil => intro n p _; cases n <;> simp [dot, rayAt]
  | cons x xs ih =>
    intro n p h
    cases n with
    | zero => simp at h
    | succ n =>
      have := ih n (p * t) (by simpa using h)
      unfold dot at this ⊢
      rw [momentLoop, List.zipWith_cons_cons, List.sum_cons, this, rayAt]
      ring

theorem foldl_gcd_one (xs : List Int) (g : Int) (hg : g = 1 ∨ g = -1) :
    ¬ xs.foldl (fun (g : Int) (y : Int) => (Int.gcd g y : Int)) g > 1 := by
  induction xs generalizing g with
  | nil => rcases hg with rfl | rfl <;> simp
  | cons x xs ih =>
    rw [List.foldl_cons]
    apply ih
    left
    rcases hg with rfl | rfl <;> simp

/-- the gcd division never changes anything -/
theorem pert_eq (n r : Nat) : pert n r = momentLoop ((r % 100 : Nat) : Int) n 1 := by
  unfold pert
  cases n with
  | zero => rfl
  | succ n =>
    rw [momentLoop, scaleDown]
    rw [if_neg]
    apply foldl_gcd_one
    split_ifs <;> simp

theorem dot_pert (n r : Nat) (ray : List Int) (h : ray.length ≤ n) : dot (pert n r) ray = 0 ↔ rayAt ((r % 100 : Nat) : Int) ray = 0 := by
  rw [pert_eq, dot_moment _ _ _ _ h, one_mul, mul_eq_zero]
  constructor
  · rintro (h | h)
    · split_ifs at h; simp at h
    · exact h
  · exact Or.inr

/-- initial state of the container meets the invariant -/
theorem setListCones_wf (n : Nat) (cones : List Cone) (h : ∀ c ∈ cones, c.rays.length = n) : ∀ t ∈ setListCones cones, Wf n t := by
  intro t ht
  obtain ⟨c, hc, rfl⟩ := List.mem_map.1 ht
  refine ⟨?_, h c hc⟩
  simp only [List.length_replicate]
  cases cones with
  | nil => simp at hc
  | cons c' cs => exact h c' (by simp)

theorem tryNo_facts (n : Nat) (l : List Int) (ts : List LTerm) (hw : ∀ t ∈ ts, Wf n t) :
    (∀ t ∈ (tryNo l ts).1, Wf n t) ∧ (∀ t ∈ (tryNo l ts).1, Mid l.length l t) ∧ (tryNo l ts).1.map (·.cone) = ts.map (·.cone) := by
  refine ⟨?_, ?_, ?_⟩
  · intro t ht
    obtain ⟨t', ht', rfl⟩ := List.mem_map.1 ht
    exact (dotL_spec n l t' (hw t' ht')).1
  · intro t ht
    obtain ⟨t', ht', rfl⟩ := List.mem_map.1 ht
    exact (dotL_spec n l t' (hw t' ht')).2.1
  · unfold tryNo
    simp only [List.map_map]
    apply List.map_congr_left
    intro t ht
    exact (dotL_spec n l t (hw t ht)).2.2

/-- the rays that the search has to make non-orthogonal: rays of cones with `<v,l> ≠ 0` that are orthogonal to `l` -/
def criticalRays (l : List Int) (cones : List Cone) : List (List Int) :=
  (cones.filter fun c => dot c.vertex l ≠ 0).flatMap fun c => c.rays.filter fun r => dot l r = 0

theorem rayAt_eval (r : List Int) : ∃ P : Polynomial Int, (∀ t, P.eval t = rayAt t r) ∧ P.natDegree ≤ r.length - 1 ∧
    (∀ i, P.coeff i = r.getD i 0) := by
  induction r with
  | nil => exact ⟨0, by simp [rayAt], by simp, by simp⟩
  | cons x xs ih =>
    obtain ⟨P, h1, h2, h3⟩ := ih
    refine ⟨Polynomial.C x + Polynomial.X * P, by simp [h1, rayAt], ?_, ?_⟩
    · by_cases hP : P = 0
      · subst hP; simp
      · refine (Polynomial.natDegree_add_le _ _).trans ?_
        rw [Polynomial.natDegree_C, Polynomial.natDegree_X_mul hP]
        have hxs : xs ≠ [] := by
          rintro rfl
          apply hP
          ext i; rw [h3]; simp
        have : 0 < xs.length := List.length_pos_iff.2 hxs
        simp; omega
    · intro i
      cases i with
      | zero => simp
      | succ i => rw [Polynomial.coeff_add, Polynomial.coeff_C_succ, Polynomial.coeff_X_mul, h3]; simp

/-- a short list of nonzero critical rays is resolved by one of the hundred moment-curve points -/
theorem exists_good_draw (n : Nat) (rs : List (List Int)) (hlen : ∀ r ∈ rs, r.length = n) (hnz : ∀ r ∈ rs, ∃ i : Fin n, r.getD i 0 ≠ 0)
    (hk : rs.length * (n - 1) < 100) : ∃ k < 100, ∀ r ∈ rs, rayAt ((k : Nat) : Int) r ≠ 0 := by
  choose P hP1 hP2 hP3 using rayAt_eval
  by_contra hne
  push Not at hne
  let Q : Polynomial Int := (rs.map P).prod
  have hQ0 : Q ≠ 0 := by
    apply List.prod_ne_zero
    intro h0
    obtain ⟨r, hr, e⟩ := List.mem_map.1 h0
    obtain ⟨i, hi⟩ := hnz r hr
    have := congrArg (Polynomial.coeff · (i : ℕ)) e
    simp only [hP3, Polynomial.coeff_zero] at this
    exact hi this
  have hdeg : Q.natDegree ≤ rs.length * (n - 1) := by
    have : ∀ l : List (List Int), (∀ r ∈ l, r.length = n) → ((l.map P).prod).natDegree ≤ l.length * (n - 1) := by
      intro l
      induction l with
      | nil => intro _; simp
      | cons r l ih =>
        intro hl
        rw [List.map_cons, List.prod_cons, List.length_cons]
        refine (Polynomial.natDegree_mul_le).trans ?_
        have h1 := hP2 r
        rw [hl r (by simp)] at h1
        have h2 := ih (fun r hr => hl r (by simp [hr]))
        have e : (l.length + 1) * (n - 1) = l.length * (n - 1) + (n - 1) := by ring
        omega
    exact this rs hlen
  have hroots : (Finset.range 100).image (fun k : ℕ => (k : Int)) ⊆ Q.roots.toFinset := by
    intro z hz
    obtain ⟨k, hk, rfl⟩ := Finset.mem_image.1 hz
    rw [Multiset.mem_toFinset, Polynomial.mem_roots hQ0]
    obtain ⟨r, hr, h0⟩ := hne k (Finset.mem_range.1 hk)
    change Q.eval _ = 0
    rw [Polynomial.eval_list_prod, List.map_map]
    apply List.prod_eq_zero
    exact List.mem_map.2 ⟨r, hr, by rw [Function.comp, hP1, h0]⟩
  have hc := Finset.card_le_card hroots
  rw [Finset.card_image_of_injective _ (fun a b h => by exact_mod_cast h), Finset.card_range] at hc
  have h1 := Multiset.toFinset_card_le Q.roots
  have h2 := Polynomial.card_roots' Q
  omega

/-- C49 (partial): when `(number of critical rays) · (n-1) < 100`, the search ends as soon as the draws have hit all hundred residues. -/
theorem c49_search_ends_partial (n : Nat) (cones : List Cone) (hok : ConesOk n cones) (l : List Int) (hl : l.length = n)
    (hfew : (criticalRays l cones).length * (n - 1) < 100) (draws : List Nat) (hd : ∀ k < 100, ∃ r ∈ draws, r % 100 = k)
    (ts : List LTerm) (hts : ts.map (·.cone) = cones) (hw : ∀ t ∈ ts, t.rdp.length = n) : findPerturbation n l draws ts ≠ none := by
  have hmem : ∀ t ∈ ts, t.cone ∈ cones := fun t ht => by rw [← hts]; exact List.mem_map_of_mem ht
  have hwf : ∀ t ∈ ts, Wf n t := fun t ht => ⟨hw t ht, (hok t.cone (hmem t ht)).2.1⟩
  obtain ⟨h1, h2, h3⟩ := tryNo_facts n l ts hwf
  unfold findPerturbation
  simp only
  split_ifs with hb
  · simp
  · subst hl
    apply pertLoop_progress l.length l.length l draws _ h1 h2
    have hcr : ∀ r ∈ criticalRays l cones, ∃ c ∈ cones, r ∈ c.rays := by
      intro r hr
      obtain ⟨c, hc, hr⟩ := List.mem_flatMap.1 hr
      exact ⟨c, (List.mem_filter.1 hc).1, (List.mem_filter.1 hr).1⟩
    obtain ⟨k, hk, hgood⟩ := exists_good_draw l.length (criticalRays l cones)
      (fun r hr => by obtain ⟨c, hc, hr⟩ := hcr r hr; exact (hok c hc).2.2.1 r hr)
      (fun r hr => by obtain ⟨c, hc, hr⟩ := hcr r hr; exact ray_nonzero _ _ (hok c hc).2.1 (hok c hc).2.2.2 r hr) hfew
    obtain ⟨r, hr, hrk⟩ := hd k hk
    refine ⟨r, hr, ?_⟩
    intro t ht hv ray hray h0
    have hc : t.cone ∈ cones := by rw [← hts, ← h3]; exact List.mem_map_of_mem ht
    rw [ne_eq, dot_pert _ _ _ (by rw [(hok _ hc).2.2.1 ray hray]), hrk]
    apply hgood
    exact List.mem_flatMap.2 ⟨t.cone, List.mem_filter.2 ⟨hc, by simpa using hv⟩, List.mem_filter.2 ⟨hray, by simpa using h0⟩⟩

/-! ### a polytope for which the search never ends -/

/-- vertices `Q_k = (k(k-1)/2, -k)`, `k = 0, ..., 100`, of a convex polygon (points of the parabola `x = y(y+1)/2`) -/
def qx (k : Nat) : Int := ((k * (k - 1) / 2 : Nat) : Int)

/-- tangent cones at the top vertices `(Q_k, 2)` of the prism over that polygon with heights 1 and 2: the rays go to the
two neighbours and down. The last vertex is adjacent to the first. -/
def prismTop (k : Nat) : Cone :=
  ⟨[qx k, -k, 2], [if k < 100 then [k, -1, 0] else [-99, 2, 0], if 0 < k then [1 - (k : Int), 1, 0] else [99, -2, 0], [0, 0, -1]]⟩

/-- tangent cones at the bottom vertices `(Q_k, 1)` -/
def prismBottom (k : Nat) : Cone :=
  ⟨[qx k, -k, 1], [if k < 100 then [k, -1, 0] else [-99, 2, 0], if 0 < k then [1 - (k : Int), 1, 0] else [99, -2, 0], [0, 0, 1]]⟩

def prismCones : List Cone := (List.range 101).map prismTop ++ (List.range 101).map prismBottom

/-- C49 fails: on the prism over a 101-gon, the integrand `z` (form `(0,0,1)`) makes the search run forever, whatever the
random draws: none of the hundred possible perturbations resolves all poles. -/
theorem c49_search_diverges (draws : List Nat) : findPerturbation 3 [0, 0, 1] draws (setListCones prismCones) = none := by
  have hlen : ∀ c ∈ prismCones, c.rays.length = 3 := by
    intro c hc
    rcases List.mem_append.1 hc with h | h <;> obtain ⟨k, _, rfl⟩ := List.mem_map.1 h <;> rfl
  have hwf := setListCones_wf 3 prismCones hlen
  obtain ⟨h1, h2, h3⟩ := tryNo_facts 3 [0, 0, 1] (setListCones prismCones) hwf
  have hcones : (setListCones prismCones).map (·.cone) = prismCones := by simp [setListCones, Function.comp_def]
  have hex : ∀ k ≤ 100, ∃ t ∈ (tryNo [0, 0, 1] (setListCones prismCones)).1, t.cone = prismTop k := by
    intro k hk
    have : prismTop k ∈ (tryNo [0, 0, 1] (setListCones prismCones)).1.map (·.cone) := by
      rw [h3, hcones]
      exact List.mem_append_left _ (List.mem_map_of_mem (List.mem_range.2 (by omega)))
    obtain ⟨t, ht, e⟩ := List.mem_map.1 this
    exact ⟨t, ht, e⟩
  unfold findPerturbation
  simp only
  have hne : (tryNo [0, 0, 1] (setListCones prismCones)).2 ≠ false := by
    obtain ⟨t, ht, e⟩ := hex 0 (by omega)
    have hm := h2 t ht
    have hv : dot t.cone.vertex [0, 0, 1] ≠ 0 := by rw [e]; decide
    have := hm.dbz hv
    rw [e] at this
    have hd : t.dbz = true := by rw [this]; decide
    rw [ne_eq, Bool.not_eq_false]
    unfold tryNo
    exact List.any_eq_true.2 ⟨t, ht, hd⟩
  rw [if_neg hne]
  apply pertLoop_stuck 3 3 [0, 0, 1] draws _ h1 h2
  intro r _
  obtain ⟨t, ht, e⟩ := hex (r % 100) (by have := Nat.mod_lt r (show 0 < 100 by omega); omega)
  refine ⟨t, ht, ?_⟩
  intro hR
  have hlt : r % 100 < 100 := Nat.mod_lt r (by omega)
  refine hR ?_ [((r % 100 : Nat) : Int), -1, 0] ?_ ?_ ?_
  · rw [e]; simp [prismTop, dot]
  · rw [e]; simp [prismTop, hlt]
  · simp [dot]
  · rw [dot_pert 3 r _ (by simp)]
    simp [rayAt]

/-- the cones of the counterexample are nondegenerate -/
example : ∀ c ∈ prismCones, c.vertex.length = 3 ∧ c.rays.length = 3 := by decide +kernel

/-- a constant integrand (`m = 0`, `l = 0`) is dropped: the unit interval gets volume 0 (callers separate constants first) -/
theorem c48_constant_dropped : findIntegralUsingLawrence 1 1 [⟨[0], [[1]]⟩, ⟨[1], [[-1]]⟩] [⟨1, 0, [0]⟩] [] = some 0 := by
  have e : (fun t : LTerm => t.dbz) = LTerm.dbz := rfl
  simp [findIntegralUsingLawrence, formsLoop, findPerturbation, tryNo, setListCones, numOfRays, dotL, dot, integratePolytope, integrateLoop,
    integrateTerm, List.range_succ]

/-- non-vacuity: the triangle with vertices (0,0), (1,0), (0,1) and the form `x`: a pole occurs and the result is `1/6`. -/
example : simplexVol 2 ![[0, 0], [1, 0], [0, 1]] = 1 := by decide +kernel
example : criticalRays [1, 0] (simplexCones 2 ![[0, 0], [1, 0], [0, 1]]) = [] := by decide +kernel
example : criticalRays [0, 1] (simplexCones 2 ![[0, 1], [1, 1], [0, 2]]) = [[1, 0], [-1, 0]] := by decide +kernel

example : findIntegralUsingLawrence 2 2 (simplexCones 2 ![[0, 1], [1, 1], [0, 2]]) [⟨1, 1, [0, 1]⟩] [3] = some (2 / 3) := by decide +kernel

end Latte.Lawrence

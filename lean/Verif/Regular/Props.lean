import Verif.Regular.Generic
import Verif.Regular.Contracts
import Verif.Brion.Total
import Verif.Brion.Extreme

/-!
# C75: regular triangulations
-/

namespace Verif.Regular

open Verif.Barvinok Verif.Barvinok.Spec Verif.Brion Verif.ExpSubst

variable {n : ℕ}

/-- The parameters make sense for these rays: the maximal height is positive, and prescribed heights lie above some linear function. -/
structure TriParams.Ok (P : TriParams n) (rays : List (Vec n)) : Prop where
  maxHeight : 1 ≤ P.maxHeight
  prescribed : ∀ t, P.prescribed = some t → HeightsOk (.prescribed t) rays

/-- Prescribed heights lie above a linear function if the cone is pointed. -/
theorem heightsOk_of_pointed (t : List (Vec n × ℤ)) (rays : List (Vec n)) (u : Fin n → ℝ) (hu : ∀ r ∈ rays, 0 < dot r u) :
    HeightsOk (.prescribed t) rays := by
  show ∃ l : Fin n → ℝ, ∀ r ∈ rays, dot r l ≤ (((t.find? fun p => p.1 = r).map (·.2)).getD 0 : ℤ)
  induction rays with
  | nil => exact ⟨0, by simp⟩
  | cons r rs ih =>
    obtain ⟨l, hl⟩ := ih fun r hr => hu r (List.mem_cons_of_mem _ hr)
    have hr := hu r List.mem_cons_self
    set w : ℝ := ((((t.find? fun p => p.1 = r).map (·.2)).getD 0 : ℤ) : ℝ) with hw
    refine ⟨l + (-((|w| + |dot r l|) / dot r u)) • u, fun s hs => ?_⟩
    rw [dot_move]
    have hpos : 0 ≤ (|w| + |dot r l|) / dot r u := by positivity
    rcases List.mem_cons.1 hs with rfl | hs
    · have : (|w| + |dot s l|) / dot s u * dot s u = |w| + |dot s l| := div_mul_cancel₀ _ hr.ne'
      rw [neg_mul, this]
      have h1 := neg_abs_le w
      have h2 := le_abs_self (dot s l)
      linarith
    · have h1 := hl s hs
      have h2 := hu s (List.mem_cons_of_mem _ hs)
      have : 0 ≤ (|w| + |dot r l|) / dot r u * dot s u := mul_nonneg hpos h2.le
      rw [neg_mul]
      linarith

/-! ### cddlib -/

/-- **C75, cddlib and Delone.** Whenever the program returns, the cones handed over triangulate the cone and use only its rays. -/
theorem c75_cddlib (dd : DD) (hdd : DDOk dd) (alg : RayAlg) (lindep : List (Vec n) → List ℤ → Bool) (P : TriParams n) (hm : P.method ≠ .fortytwo)
    (hns : P.nonsimplicial = false) (hM : 1 ≤ P.maxHeight) (g : Rng) (hg : g.Ok) (fuel : ℕ) (rays : List (Vec n)) (hs : Spans rays) (k : ℕ)
    (out : List (List (Vec n))) (k' : ℕ) (h : triangulateCone dd alg lindep P g fuel rays k = .ok (out, k')) :
    Triangulates out (generated rays) ∧ ∀ c ∈ out, ∀ r ∈ c, r ∈ rays := by
  unfold triangulateCone at h
  by_cases h1 : P.assumeFulldim = true ∧ n = rays.length
  · rw [if_pos h1] at h
    cases h
    refine ⟨(Subdivides.single rays hs).triangulates ?_, ?_⟩
    · intro c hc
      rw [List.mem_singleton.1 hc]
      exact h1.2.symm
    · intro c hc
      rw [List.mem_singleton.1 hc]
      exact fun r hr => hr
  · rw [if_neg h1] at h
    cases hmm : P.method with
    | fortytwo => exact absurd hmm hm
    | cddlib =>
      rw [hmm, hns] at h
      obtain ⟨h2, h3, h4⟩ := triangulateCdd_subdivides dd hdd g hg false P.maxHeight hM fuel (.random P.maxHeight) rays k out k' hs hM h
      exact ⟨h2.triangulates (h3 rfl), h4⟩
    | delone =>
      rw [hmm, hns] at h
      obtain ⟨h2, h3, h4⟩ := triangulateCdd_subdivides dd hdd g hg false P.maxHeight hM fuel .delone rays k out k' hs trivial h
      exact ⟨h2.triangulates (h3 rfl), h4⟩

/-- **C75, cddlib: the program does not stop with an error.** In particular, "Lower-dimensional cone in polyhedral subdivision, should not happen" does
not happen. -/
theorem c75_cddlib_no_error (dd : DD) (hdd : DDOk dd) (alg : RayAlg) (lindep : List (Vec n) → List ℤ → Bool) (P : TriParams n) (hm : P.method ≠ .fortytwo)
    (hM : 1 ≤ P.maxHeight) (g : Rng) (hg : g.Ok) (fuel : ℕ) (rays : List (Vec n)) (hs : Spans rays) (k : ℕ) (e : Fail)
    (h : triangulateCone dd alg lindep P g fuel rays k = .error e) : e = .fuel := by
  unfold triangulateCone at h
  by_cases h1 : P.assumeFulldim = true ∧ n = rays.length
  · rw [if_pos h1] at h
    cases h
  rw [if_neg h1] at h
  cases hmm : P.method with
  | fortytwo => exact absurd hmm hm
  | cddlib => rw [hmm] at h; exact triangulateCdd_error dd hdd g hg _ _ hM fuel (.random P.maxHeight) rays k e hs hM h
  | delone => rw [hmm] at h; exact triangulateCdd_error dd hdd g hg _ _ hM fuel .delone rays k e hs trivial h

/-- **C75, cddlib: the program returns if the heights drawn are generic,** that is, no `n + 1` lifted rays lie on a hyperplane. -/
theorem c75_cddlib_generic (dd : DD) (hdd : DDOk dd) (alg : RayAlg) (lindep : List (Vec n) → List ℤ → Bool) (P : TriParams n) (hm : P.method = .cddlib)
    (hM : 1 ≤ P.maxHeight) (g : Rng) (hg : g.Ok) (fuel : ℕ) (rays : List (Vec n)) (hs : Spans rays) (k : ℕ)
    (hgen : GenericHeights rays (heights g (.random P.maxHeight) rays k).1) :
    ∃ out k', triangulateCone dd alg lindep P g (fuel + 1) rays k = .ok (out, k') ∧ Triangulates out (generated rays) := by
  unfold triangulateCone
  by_cases h1 : P.assumeFulldim = true ∧ n = rays.length
  · rw [if_pos h1]
    refine ⟨_, _, rfl, (Subdivides.single rays hs).triangulates fun c hc => ?_⟩
    rw [List.mem_singleton.1 hc]
    exact h1.2.symm
  · rw [if_neg h1, hm]
    obtain ⟨out, h2, h3⟩ := triangulateCdd_generic dd hdd g hg P.nonsimplicial P.maxHeight fuel (.random P.maxHeight) rays k hs hM hgen
    exact ⟨out, _, h2, h3⟩

open scoped Classical in
/-- **C75: most heights are generic.** Of the `maxHeight ^ N` choices for `N` rays at most `C(N, n+1) * maxHeight ^ (N-1)` are not generic. -/
theorem c75_generic_count (rays : List (Vec n)) (m : ℕ) :
    (Finset.univ.filter fun w : Fin rays.length → Fin m => ¬ GenericHeights rays (List.ofFn fun i => ((w i : ℕ) : ℤ) + 1)).card ≤
      rays.length.choose (n + 1) * m ^ (rays.length - 1) := generic_count rays m

/-- If the heights are linear, one of the cells is the whole cone. -/
theorem full_cell (dd : DD) (hdd : DDOk dd) (rays : List (Vec n)) (hs : Spans rays) (ws : List ℤ) (hl : LinearHeights rays ws) :
    ∃ c ∈ (kept rays.length (dd (rays.length + 1) (n + 2) (ddMatrix rays ws))).map (cellOf rays), c.length = rays.length := by
  obtain ⟨l, hl⟩ := hl
  have htight : tight (rayOf rays) (heightOf rays ws) l = Set.univ := by
    ext i
    exact ⟨fun _ => trivial, fun _ => hl i⟩
  have hspan : Spanning (rayOf rays) Set.univ :=
    (spans_iff (rayOf rays) Set.univ rays fun r => ⟨fun hr => by
      obtain ⟨i, hi⟩ := List.mem_iff_get.1 hr
      exact ⟨i, trivial, hi⟩, fun ⟨i, _, hi⟩ => hi ▸ List.get_mem rays i⟩).1 hs
  have hF := facet_of_vertex (rayOf rays) (heightOf rays ws) l (fun i => (hl i).le) (by rw [htight]; exact hspan)
  rw [htight] at hF
  have hmem := (hdd (rays.length + 1) (n + 2) (ddMatrix rays ws)).2
  rw [ddMatrix_eq] at hmem
  obtain ⟨row, hrow, hset⟩ := List.mem_map.1 ((hmem _).2 ((facet_cons _ _).2 hF))
  have hlast : ¬ row.incident (rays.length + 1) = true := by
    intro hc
    have : Fin.last rays.length ∈ row.set (rays.length + 1) := by
      unfold DDRow.set
      simpa using hc
    rw [hset] at this
    exact last_notMem _ this
  refine ⟨cellOf rays row, List.mem_map_of_mem (List.mem_filter.2 ⟨hrow, by simpa using hlast⟩), ?_⟩
  unfold cellOf
  rw [coneFromRaySet_length, List.filter_eq_self.2, List.length_range', List.length_nil, add_zero]
  intro j hj
  rw [List.mem_range'_1] at hj
  have : (⟨j - 1, by omega⟩ : Fin rays.length).castSucc ∈ row.set (rays.length + 1) := by
    rw [hset]
    exact ⟨_, trivial, rfl⟩
  have h2 : row.incident ((⟨j - 1, by omega⟩ : Fin rays.length).castSucc + 1) = true := this
  simp only [Fin.val_castSucc] at h2
  rwa [show j - 1 + 1 = j by omega] at h2

/-- **C75, violation: the recursion with cddlib need not end.** With `--triangulation-max-height=1`, and rays on a hyperplane (as they are for the cone over
a polytope), a cone that is not simplicial is handed to the same function again and again. -/
theorem c75_cddlib_hangs (dd : DD) (hdd : DDOk dd) (g : Rng) (hg : g.Ok) : ∀ (fuel : ℕ) (rays : List (Vec n)) (k : ℕ), Spans rays → n < rays.length →
    (∃ l : Fin n → ℝ, ∀ r ∈ rays, dot r l = 1) → triangulateCdd dd false 1 g n fuel (.random 1) rays k = .error .fuel := by
  intro fuel
  induction fuel with
  | zero => intros; rfl
  | succ fuel ih =>
    intro rays k hs hn ⟨l, hl⟩
    cases hr : triangulateCdd dd false 1 g n (fuel + 1) (.random 1) rays k with
    | error e => rw [triangulateCdd_error dd hdd g hg false 1 le_rfl _ (.random 1) rays k e hs (le_refl (1 : ℤ)) hr]
    | ok p =>
      exfalso
      obtain ⟨out, k'⟩ := p
      rw [triangulateCdd] at hr
      obtain ⟨outs, -, hf⟩ := cddLoop_ok _ _ _ _ _ _ _ _ hr
      obtain ⟨c, hc, hlen⟩ := full_cell dd hdd rays hs (heights g (.random 1) rays k).1 ⟨l, fun i => by
        obtain ⟨j, hj⟩ := heights_get g (.random 1) rays k i
        rw [hj, hl _ (List.get_mem rays i)]
        have := hg j 1 1 le_rfl
        have h1 : (height g (.random 1) (rays.get i) j).1 = 1 := le_antisymm this.2 this.1
        rw [h1]
        norm_num⟩
      have hsub := (cdd_subdivides dd hdd rays hs (heights g (.random 1) rays k).1 (heights_feasible g hg (.random 1) rays (le_refl (1 : ℤ)) k)).spans c hc
      have hcl : ∃ l : Fin n → ℝ, ∀ r ∈ c, dot r l = 1 := by
        obtain ⟨row, -, rfl⟩ := List.mem_map.1 hc
        refine ⟨l, fun r hr => hl r ?_⟩
        unfold cellOf at hr
        rw [coneFromRaySet_mem] at hr
        rcases hr with hr | ⟨i, -, rfl⟩
        · simp at hr
        · exact List.get_mem rays i
      have hstep : ∀ {α β : Type} {R : α → β → Prop} {l : List α} {l' : List β}, List.Forall₂ R l l' → ∀ a ∈ l, ∃ b, R a b := by
        intro α β R l l' h
        induction h with
        | nil => simp
        | cons h1 _ ih =>
          intro a ha
          rcases List.mem_cons.1 ha with rfl | ha
          · exact ⟨_, h1⟩
          · exact ih a ha
      obtain ⟨o, ⟨-, -, k1, k2, he⟩ | ⟨hno, -⟩⟩ := hstep hf c hc
      · rw [ih c k1 hsub (by omega) hcl] at he
        cases he
      · exact hno ⟨by omega, rfl⟩

/-! ### 4ti2 -/

/-- The height function that `triangulateCone` uses with 4ti2. -/
def TriParams.fortytwoHeight (P : TriParams n) : Height n :=
  match P.prescribed with
  | some t => .prescribed t
  | none => if 0 ≤ P.bias then .biased P.bias else .random P.maxHeight

theorem TriParams.Ok.heights {P : TriParams n} {rays : List (Vec n)} (h : P.Ok rays) : HeightsOk P.fortytwoHeight rays := by
  unfold fortytwoHeight
  cases hp : P.prescribed with
  | some t => exact h.prescribed t hp
  | none =>
    dsimp only
    split_ifs
    · trivial
    · exact h.maxHeight

/-- **C75, 4ti2.** The program always returns; the cones handed over subdivide the cone and use only its rays; and if one of them is not simplicial, then the
heights drawn for it were all equal or a linear function. -/
theorem c75_fortytwo (dd : DD) (alg : RayAlg) (ha : RayAlgOk alg) (lindep : List (Vec n) → List ℤ → Bool) (hl : LindepOk lindep) (P : TriParams n)
    (hm : P.method = .fortytwo) (hns : P.nonsimplicial = false) (g : Rng) (hg : g.Ok) (fuel : ℕ) (rays : List (Vec n)) (hP : P.Ok rays)
    (hs : Spans rays) (k : ℕ) (hfuel : rays.length < fuel) :
    ∃ out k', triangulateCone dd alg lindep P g fuel rays k = .ok (out, k') ∧ Subdivides out (generated rays) ∧ (∀ c ∈ out, ∀ r ∈ c, r ∈ rays) ∧
      ∀ c ∈ out, c.length ≠ n →
        (c = rays ∧ Degenerate c (heights g P.fortytwoHeight rays k).1) ∨ ∃ j, Degenerate c (heights g (.random P.maxHeight) c j).1 := by
  unfold triangulateCone
  by_cases h1 : P.assumeFulldim = true ∧ n = rays.length
  · rw [if_pos h1]
    refine ⟨_, _, rfl, Subdivides.single rays hs, ?_, ?_⟩
    · intro c hc
      rw [List.mem_singleton.1 hc]
      exact fun r hr => hr
    · intro c hc hne
      rw [List.mem_singleton.1 hc] at hne
      exact absurd h1.2.symm hne
  · rw [if_neg h1, hm]
    dsimp only
    obtain ⟨⟨out, k'⟩, h2⟩ := triangulate4ti2_total alg ha lindep hl g hg P.nonsimplicial P.maxHeight hP.maxHeight fuel P.fortytwoHeight rays k hs hP.heights
      hfuel
    obtain ⟨h3, h4, h5⟩ := triangulate4ti2_subdivides alg ha lindep hl g hg P.nonsimplicial P.maxHeight hP.maxHeight fuel P.fortytwoHeight rays k out k' hs
      hP.heights h2
    exact ⟨out, k', h2, h3, h4, h5 hns⟩

/-- **C75, 4ti2: generic heights.** If the heights drawn are generic and not all equal, the result is a triangulation. -/
theorem c75_fortytwo_generic (dd : DD) (alg : RayAlg) (ha : RayAlgOk alg) (lindep : List (Vec n) → List ℤ → Bool) (hl : LindepOk lindep) (P : TriParams n)
    (hm : P.method = .fortytwo) (g : Rng) (hg : g.Ok) (fuel : ℕ) (rays : List (Vec n)) (hP : P.Ok rays)
    (hs : Spans rays) (k : ℕ) (hne : ¬ EqualHeights (heights g P.fortytwoHeight rays k).1)
    (hgen : GenericHeights rays (heights g P.fortytwoHeight rays k).1) :
    ∃ out k', triangulateCone dd alg lindep P g (fuel + 1) rays k = .ok (out, k') ∧ Triangulates out (generated rays) := by
  unfold triangulateCone
  by_cases h1 : P.assumeFulldim = true ∧ n = rays.length
  · rw [if_pos h1]
    refine ⟨_, _, rfl, (Subdivides.single rays hs).triangulates fun c hc => ?_⟩
    rw [List.mem_singleton.1 hc]
    exact h1.2.symm
  · rw [if_neg h1, hm]
    obtain ⟨out, h2, h3⟩ := triangulate4ti2_generic alg ha lindep hl g hg P.nonsimplicial P.maxHeight fuel P.fortytwoHeight rays k hs hP.heights hne hgen
    exact ⟨out, _, h2, h3⟩

/-- **C75, violation: 4ti2 hands over a cone that is not simplicial** whenever the heights drawn are equal or linear, although a triangulation was asked for. -/
theorem c75_fortytwo_degenerate (dd : DD) (alg : RayAlg) (lindep : List (Vec n) → List ℤ → Bool) (hl : LindepOk lindep) (P : TriParams n)
    (hm : P.method = .fortytwo) (g : Rng) (fuel : ℕ) (rays : List (Vec n)) (hn : n < rays.length) (k : ℕ)
    (hd : Degenerate rays (heights g P.fortytwoHeight rays k).1) :
    ∃ k', triangulateCone dd alg lindep P g (fuel + 1) rays k = .ok ([rays], k') ∧ ∀ K, ¬ Triangulates [rays] K := by
  refine ⟨(heights g P.fortytwoHeight rays k).2, ?_, fun K h => ?_⟩
  · unfold triangulateCone
    rw [if_neg (fun h => by omega), hm]
    show triangulate4ti2 alg lindep P.nonsimplicial P.maxHeight g (fuel + 1) P.fortytwoHeight rays k = _
    rw [triangulate4ti2]
    simp only
    by_cases he : ((heights g P.fortytwoHeight rays k).1.all fun x => decide (x = (heights g P.fortytwoHeight rays k).1.headD 0)) = true
    · rw [if_pos he]
    · rw [if_neg he, if_pos ((hl _ _).2 (hd.resolve_left fun h => he ((equal_iff _).2 h)))]
  · have := h.length rays (List.mem_singleton.2 rfl)
    omega

/-- With `--triangulation-bias=0` the heights are always equal. -/
theorem c75_bias_zero (dd : DD) (alg : RayAlg) (lindep : List (Vec n) → List ℤ → Bool) (hl : LindepOk lindep) (P : TriParams n)
    (hm : P.method = .fortytwo) (hp : P.prescribed = none) (hb : P.bias = 0) (g : Rng) (hg : g.Ok) (fuel : ℕ) (rays : List (Vec n)) (hn : n < rays.length)
    (k : ℕ) : ∃ k', triangulateCone dd alg lindep P g (fuel + 1) rays k = .ok ([rays], k') := by
  obtain ⟨k', h, -⟩ := c75_fortytwo_degenerate dd alg lindep hl P hm g fuel rays hn k (.inl (by
    have hh : P.fortytwoHeight = .biased 0 := by
      unfold TriParams.fortytwoHeight
      rw [hp, hb]
      rfl
    rw [hh]
    have key : ∀ (rays : List (Vec n)) (k : ℕ), ∀ x ∈ (heights g (.biased 0) rays k).1, x = 1 := by
      intro rays
      induction rays with
      | nil => intro k x hx; simp [heights] at hx
      | cons r rs ih =>
        intro k x hx
        simp only [heights, height] at hx
        rcases List.mem_cons.1 hx with rfl | hx
        · rw [if_neg (not_lt.2 (hg k 0 99 (by norm_num)).1)]
        · exact ih _ x hx
    exact fun x hx y hy => (key rays k x hx).trans (key rays k y hy).symm))
  exact ⟨k', h⟩

/-! ### An example -/

/-- The cone over the unit square. -/
def squareRays : List (Vec 3) := [![0, 0, 1], ![1, 0, 1], ![0, 1, 1], ![1, 1, 1]]

theorem square_spans : Spans squareRays := by
  intro d hd
  have h0 := hd ![0, 0, 1] (by simp [squareRays])
  have h1 := hd ![1, 0, 1] (by simp [squareRays])
  have h2 := hd ![0, 1, 1] (by simp [squareRays])
  simp [dot, Fin.sum_univ_three] at h0 h1 h2
  funext k
  fin_cases k
  · show d 0 = 0; linarith
  · show d 1 = 0; linarith
  · show d 2 = 0; exact h0

theorem square_hyperplane : ∃ l : Fin 3 → ℝ, ∀ r ∈ squareRays, dot r l = 1 := by
  refine ⟨![0, 0, 1], fun r hr => ?_⟩
  simp only [squareRays, List.mem_cons, List.not_mem_nil, or_false] at hr
  rcases hr with rfl | rfl | rfl | rfl <;> simp [dot, Fin.sum_univ_three]

/-- Heights are generic for the square unless the sums over opposite corners agree. -/
theorem square_generic (w0 w1 w2 w3 : ℤ) (hw : w0 + w3 ≠ w1 + w2) : GenericHeights squareRays [w0, w1, w2, w3] := by
  have hw' : (w0 : ℝ) + w3 ≠ w1 + w2 := by exact_mod_cast hw
  intro l S hS
  by_contra hc
  have huniv : S = Finset.univ := by
    apply Finset.eq_univ_of_card
    have := S.card_le_univ
    rw [Fintype.card_fin] at this ⊢
    have h4 : squareRays.length = 4 := rfl
    omega
  have h0 := hS (0 : Fin 4) (by rw [huniv]; exact Finset.mem_univ _)
  have h1 := hS (1 : Fin 4) (by rw [huniv]; exact Finset.mem_univ _)
  have h2 := hS (2 : Fin 4) (by rw [huniv]; exact Finset.mem_univ _)
  have h3 := hS (3 : Fin 4) (by rw [huniv]; exact Finset.mem_univ _)
  have e0 : squareRays.get (0 : Fin 4) = ![0, 0, 1] := rfl
  have e1 : squareRays.get (1 : Fin 4) = ![1, 0, 1] := rfl
  have e2 : squareRays.get (2 : Fin 4) = ![0, 1, 1] := rfl
  have e3 : squareRays.get (3 : Fin 4) = ![1, 1, 1] := rfl
  rw [e0] at h0; rw [e1] at h1; rw [e2] at h2; rw [e3] at h3
  simp [dot, Fin.sum_univ_three] at h0 h1 h2 h3
  exact hw' (by linarith)

/-- A generator that delivers the numbers of a list, cut to the range. -/
def listRng (L : List ℤ) : Rng := fun k lo hi => max lo (min hi (L.getD k lo))

theorem listRng_ok (L : List ℤ) : (listRng L).Ok := fun _ _ _ h => ⟨le_max_left _ _, max_le h (min_le_left _ _)⟩

/-- The default parameters, barvinok.cpp:54–75. -/
def defaultParams (method : Method) : TriParams n := ⟨method, 10000, -1, false, none, true⟩

/-- The heights 1, 2, 2, 4 drawn with the default parameters: both methods return a triangulation of the cone over the square. -/
theorem c75_square (dd : DD) (hdd : DDOk dd) (alg : RayAlg) (ha : RayAlgOk alg) (lindep : List (Vec 3) → List ℤ → Bool) (hl : LindepOk lindep) :
    (∃ out k', triangulateCone dd alg lindep (defaultParams .cddlib) (listRng [1, 2, 2, 4]) 1 squareRays 0 = .ok (out, k') ∧
      Triangulates out (generated squareRays)) ∧
    ∃ out k', triangulateCone dd alg lindep (defaultParams .fortytwo) (listRng [1, 2, 2, 4]) 1 squareRays 0 = .ok (out, k') ∧
      Triangulates out (generated squareRays) := by
  have hh : (heights (listRng [1, 2, 2, 4]) (.random 10000) squareRays 0).1 = [1, 2, 2, 4] := by decide +kernel
  refine ⟨c75_cddlib_generic dd hdd alg lindep _ rfl (by show (1 : ℤ) ≤ 10000; norm_num) _ (listRng_ok _) 0 _ square_spans 0 ?_,
    c75_fortytwo_generic dd alg ha lindep hl _ rfl _ (listRng_ok _) 0 _ ⟨by show (1 : ℤ) ≤ 10000; norm_num, by intro t h; cases h⟩ square_spans 0 ?_ ?_⟩
  · show GenericHeights squareRays (heights (listRng [1, 2, 2, 4]) (.random 10000) squareRays 0).1
    rw [hh]; exact square_generic _ _ _ _ (by norm_num)
  · show ¬ EqualHeights (heights (listRng [1, 2, 2, 4]) (.random 10000) squareRays 0).1
    rw [hh]
    intro h
    have := h 1 (by simp) 2 (by simp)
    omega
  · show GenericHeights squareRays (heights (listRng [1, 2, 2, 4]) (.random 10000) squareRays 0).1
    rw [hh]; exact square_generic _ _ _ _ (by norm_num)

/-- With `--triangulation-bias=50` and the numbers 99, 99, 99, 0 drawn, the heights are 1, 1, 1, 2, and the 4ti2 method returns a triangulation. -/
theorem c75_square_biased (dd : DD) (alg : RayAlg) (ha : RayAlgOk alg) (lindep : List (Vec 3) → List ℤ → Bool) (hl : LindepOk lindep) :
    ∃ out k', triangulateCone dd alg lindep { defaultParams .fortytwo with bias := 50 } (listRng [99, 99, 99, 0]) 1 squareRays 0 = .ok (out, k') ∧
      Triangulates out (generated squareRays) := by
  have hh : (heights (listRng [99, 99, 99, 0]) (.biased 50) squareRays 0).1 = [1, 1, 1, 2] := by decide +kernel
  refine c75_fortytwo_generic dd alg ha lindep hl _ rfl _ (listRng_ok _) 0 _ ⟨by show (1 : ℤ) ≤ 10000; norm_num, by intro t h; cases h⟩ square_spans 0 ?_ ?_
  · show ¬ EqualHeights (heights (listRng [99, 99, 99, 0]) (.biased 50) squareRays 0).1
    rw [hh]
    intro h
    have := h 1 (by simp) 2 (by simp)
    omega
  · show GenericHeights squareRays (heights (listRng [99, 99, 99, 0]) (.biased 50) squareRays 0).1
    rw [hh]; exact square_generic _ _ _ _ (by norm_num)

/-- **C75, violation, default parameters.** With the heights 1, 2, 2, 3 for the cone over the square the 4ti2 method, the default, hands over the whole cone,
which is not simplicial. -/
theorem c75_square_violation (dd : DD) (alg : RayAlg) (lindep : List (Vec 3) → List ℤ → Bool) (hl : LindepOk lindep) :
    ∃ k', triangulateCone dd alg lindep (defaultParams .fortytwo) (listRng [1, 2, 2, 3]) 1 squareRays 0 = .ok ([squareRays], k') ∧
      ∀ K, ¬ Triangulates [squareRays] K := by
  have hh : (heights (listRng [1, 2, 2, 3]) (.random 10000) squareRays 0).1 = [1, 2, 2, 3] := by decide +kernel
  refine c75_fortytwo_degenerate dd alg lindep hl _ rfl _ 0 _ (by decide) 0 (.inr ?_)
  show LinearHeights squareRays (heights (listRng [1, 2, 2, 3]) (.random 10000) squareRays 0).1
  rw [hh]
  refine ⟨![1, 1, 1], fun i => ?_⟩
  have h4 : squareRays.length = 4 := rfl
  obtain ⟨i, hi⟩ := i
  rw [h4] at hi
  interval_cases i <;> simp [squareRays, dot, Fin.sum_univ_three] <;> norm_num

/-- The endless recursion happens for the cone over the square. -/
theorem c75_square_hangs (dd : DD) (hdd : DDOk dd) (g : Rng) (hg : g.Ok) (fuel k : ℕ) :
    triangulateCdd dd false 1 g 3 fuel (.random 1) squareRays k = .error .fuel :=
  c75_cddlib_hangs dd hdd g hg fuel squareRays k square_spans (by decide) square_hyperplane

end Verif.Regular

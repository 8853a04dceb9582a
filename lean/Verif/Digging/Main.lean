import Verif.Digging.Levels

/-!
# The main loop of `SolveIP`

Level by level from above, the coefficients of the cones are added up until a level holds a feasible point.
-/

namespace Verif.Digging

open Verif.Barvinok (Vec)
open Verif.ExpSubst
open Verif.PolySubst (den' OffCone)

variable {n : ℕ}

/-! ## More fuel does not change a result -/

theorem nextLoop_mono (H : Hashing) (s : List ℤ) (t : ℤ) : ∀ (fuel : ℕ) (h : VHeap) (T : Table) (co : ℤ) (vs : List (List ℕ)),
    nextLoop H s t fuel h T co vs ≠ .error .fuel → nextLoop H s t (fuel + 1) h T co vs = nextLoop H s t fuel h T co vs := by
  intro fuel
  induction fuel with
  | zero => intro h T co vs hne; exact absurd rfl hne
  | succ fuel ih =>
    intro h T co vs hne
    rw [nextLoop] at hne ⊢
    rw [nextLoop]
    by_cases htop : h.topIs vkey t = true
    · rw [if_pos htop] at hne ⊢
      rw [if_pos htop]
      cases hp : h.pop vkey with
      | none => rfl
      | some r =>
        obtain ⟨⟨e, x⟩, h1⟩ := r
        rw [hp] at hne
        dsimp only at hne ⊢
        cases hq : probe H e H.size (H.hash e) T with
        | none => rfl
        | some r =>
          obtain ⟨b, T1⟩ := r
          rw [hq] at hne
          cases b with
          | true =>
            dsimp only at hne ⊢
            exact ih _ _ _ _ hne
          | false =>
            dsimp only at hne ⊢
            cases ha : addSuccessors s e t h1 with
            | none => rfl
            | some h2 =>
              rw [ha] at hne
              dsimp only at hne ⊢
              exact ih _ _ _ _ hne
    · rw [if_neg htop]
      rw [if_neg htop]

theorem nextTerm_mono (H : Hashing) (fuel : ℕ) (c : Info n) (hne : nextTerm H fuel c ≠ .error .fuel) : nextTerm H (fuel + 1) c = nextTerm H fuel c := by
  unfold nextTerm at hne ⊢
  by_cases hz : c.zeroFlag = true
  · rw [if_pos hz, if_pos hz]
  · rw [if_neg hz] at hne
    rw [if_neg hz, if_neg hz]
    cases hp : c.heap.pop vkey with
    | none => rfl
    | some r =>
      obtain ⟨⟨e, t⟩, h1⟩ := r
      rw [hp] at hne
      dsimp only at hne ⊢
      cases ha : addSuccessors c.svals e t h1 with
      | none => rfl
      | some h2 =>
        rw [ha] at hne
        dsimp only at hne ⊢
        rw [nextLoop_mono]
        intro hcon
        rw [hcon] at hne
        exact hne rfl

theorem digAll_mono (H : Hashing) (fuel : ℕ) : ∀ (cs : List (Info n)) (h : Heap (Info n)), digAll H fuel cs h ≠ .error .fuel →
    digAll H (fuel + 1) cs h = digAll H fuel cs h := by
  intro cs
  induction cs with
  | nil => intro h _; rfl
  | cons c cs ih =>
    intro h hne
    unfold digAll at hne ⊢
    have h1 : nextTerm H fuel c ≠ .error .fuel := by
      intro hcon
      rw [hcon] at hne
      exact hne rfl
    rw [nextTerm_mono H fuel c h1]
    cases hr : nextTerm H fuel c with
    | error s => rfl
    | ok c' =>
      rw [hr] at hne
      dsimp only at hne ⊢
      cases ha : h.add ikey c' with
      | none => rfl
      | some h2 =>
        rw [ha] at hne
        dsimp only at hne ⊢
        exact ih h2 hne

theorem digAll_mono_le (H : Hashing) {fuel fuel' : ℕ} (hle : fuel ≤ fuel') (cs : List (Info n)) (h : Heap (Info n)) (hne : digAll H fuel cs h ≠ .error .fuel) :
    digAll H fuel' cs h = digAll H fuel cs h := by
  induction fuel', hle using Nat.le_induction with
  | base => rfl
  | succ k _ ih => rw [digAll_mono H k cs h (by rw [ih]; exact hne), ih]

/-! ## The state of the heap of cones -/

theorem count_card {α : Type} {key : α → ℤ} : ∀ (k : ℕ) (h : Heap α), h.Ok key → Multiset.card h.elems = k → h.count = k := by
  intro k
  induction k with
  | zero =>
    intro h ho hk
    have h0 : h.elems = 0 := Multiset.card_eq_zero.1 hk
    obtain ⟨c, t⟩ := h
    cases t with
    | nil =>
      by_contra hc
      have := (ho.shape []).2 (by show 1 ≤ c; exact Nat.one_le_iff_ne_zero.2 hc)
      exact this
    | node v l r => exact absurd (h0 ▸ Multiset.mem_cons_self v _ : v ∈ (0 : Multiset α)) (Multiset.notMem_zero v)
  | succ k ih =>
    intro h ho hk
    have h0 : h.elems ≠ 0 := by
      intro h0
      rw [h0, Multiset.card_zero] at hk
      cases hk
    obtain ⟨v, h', e1, o1, m1, -, c1⟩ := c78_pop key h ho h0
    rw [m1, Multiset.card_cons] at hk
    have h2 := ih h' o1 (by omega)
    have h3 : 1 ≤ h.count := by
      obtain ⟨c, t⟩ := h
      cases t with
      | nil => exact absurd rfl h0
      | node v l r => exact (ho.shape []).1 trivial
    omega

theorem popEqual_spec (k : ℤ) : ∀ (fuel : ℕ) (h : Heap (Info n)), h.Ok ikey → Multiset.card h.elems ≤ fuel → (∀ c ∈ h.elems, c.current ≤ k) →
    ∃ cs h', popEqual k fuel h = some (cs, h') ∧ h'.Ok ikey ∧ h.elems = (cs : Multiset (Info n)) + h'.elems ∧ (∀ c ∈ cs, c.current = k) ∧
      ∀ c ∈ h'.elems, c.current < k := by
  intro fuel
  induction fuel with
  | zero =>
    intro h ho hf hk
    have h0 : h.elems = 0 := Multiset.card_eq_zero.1 (by omega)
    exact ⟨[], h, rfl, ho, by simp, by simp, by rw [h0]; intro c hc; exact absurd hc (Multiset.notMem_zero c)⟩
  | succ fuel ih =>
    intro h ho hf hk
    unfold popEqual
    by_cases htop : h.topIs ikey k = true
    · rw [if_pos htop]
      obtain ⟨⟨x, hx, hxk⟩, -⟩ := (c78_top ikey k h ho).1 htop
      have h0 : h.elems ≠ 0 := by
        intro h0; rw [h0] at hx; exact Multiset.notMem_zero _ hx
      obtain ⟨c, h1, e1, o1, m1, hmax, -⟩ := c78_pop ikey h ho h0
      have hck : c.current = k := by
        have h2 := hmax x hx
        have h3 := hk c (by rw [m1]; exact Multiset.mem_cons_self _ _)
        rw [hxk] at h2
        exact le_antisymm h3 h2
      obtain ⟨cs, h2, e2, o2, m2, a2, b2⟩ := ih h1 o1 (by rw [m1, Multiset.card_cons] at hf; omega)
        (fun c' hc' => hk c' (by rw [m1]; exact Multiset.mem_cons_of_mem hc'))
      rw [e1]
      dsimp only
      rw [e2]
      refine ⟨c :: cs, h2, rfl, o2, ?_, ?_, b2⟩
      · rw [m1, m2, ← Multiset.cons_coe, Multiset.cons_add]
      · intro c' hc'
        rcases List.mem_cons.1 hc' with rfl | hc'
        · exact hck
        · exact a2 c' hc'
    · rw [if_neg htop]
      refine ⟨[], h, rfl, ho, by simp, by simp, fun c hc => ?_⟩
      refine lt_of_le_of_ne (hk c hc) fun hcon => htop ?_
      exact (c78_top ikey k h ho).2 ⟨⟨c, hc, hcon⟩, hk⟩

/-- The object follows the turned cone, and all levels from `B` on have been dealt with. -/
structure Tracks (cost : Vec n) (B : ℤ) (d : Datum n) (c : Info n) : Prop where
  inv : CInv d.sg c
  stands : StandsFor cost c d.p d.fs
  below : c.current < B
  next : ∀ e, e.length = d.fs.length → inner cost (d.p + lincomb e d.fs) < B → inner cost (d.p + lincomb e d.fs) ≤ c.current

theorem Tracks.at_current {cost : Vec n} {B : ℤ} {d : Datum n} {c : Info n} (h : Tracks cost B d c) :
    d.at cost c.current = level c.svals c.expansion := by
  rw [Datum.at_eq, h.stands.svals]
  congr 1
  rw [h.inv.cur, h.stands.numer]
  ring

theorem Tracks.coefficient {cost : Vec n} {B : ℤ} {d : Datum n} {c : Info n} (h : Tracks cost B d c) :
    c.coefficient = d.sg * ((d.at cost c.current).ncard : ℤ) := by
  rw [h.at_current, h.inv.coeff, h.inv.lists.length]

theorem Tracks.mem_vectors {cost : Vec n} {B : ℤ} {d : Datum n} {c : Info n} (h : Tracks cost B d c) (e : List ℕ) :
    e ∈ c.vectors ↔ e ∈ d.at cost c.current := by
  rw [h.at_current]; exact h.inv.lists.2 e

theorem Tracks.empty {cost : Vec n} {B : ℤ} {d : Datum n} {c : Info n} (h : Tracks cost B d c) {t : ℤ} (h1 : c.current < t) (h2 : t < B) :
    d.at cost t = ∅ := by
  ext e
  refine ⟨?_, fun h => h.elim⟩
  rintro ⟨h3, h4⟩
  have := h.next e h3 (by omega)
  omega

/-- `t` is the level of the turned cone that follows `k`. -/
def Follows (cost : Vec n) (d : Datum n) (k t : ℤ) : Prop :=
  t < k ∧ (d.at cost k).Nonempty ∧ (d.at cost t).Nonempty ∧ ∀ u, t < u → u < k → d.at cost u = ∅

theorem tracks_next (H : Hashing) {cost : Vec n} {B : ℤ} {d : Datum n} {c : Info n} (h : Tracks cost B d c) : ∃ t, Follows cost d c.current t ∧ ∃ N, ∀ fuel,
    (∃ c', nextTerm H fuel c = .ok c' ∧ Tracks cost c.current d c' ∧ c'.current = t) ∨
    (nextTerm H fuel c = .error .hang ∧ H.size < (d.at cost t).ncard) ∨
    (nextTerm H fuel c = .error .fuel ∧ fuel < N) := by
  obtain ⟨t, ⟨n1, n2, n3⟩, N, hN⟩ := nextTerm_spec H h.inv
  have hlev : ∀ u, d.at cost (c.numer + u) = level c.svals u := by
    intro u
    rw [Datum.at_eq, h.stands.svals]
    congr 1
    rw [h.stands.numer]
    ring
  have hlen : c.svals.length = d.fs.length := by rw [h.stands.svals, List.length_map]
  have hval : ∀ e, inner cost (d.p + lincomb e d.fs) = c.numer + dotL e c.svals := by
    intro e
    rw [inner_add, inner_lincomb, h.stands.numer, h.stands.svals]
  refine ⟨c.numer + t, ⟨by rw [h.inv.cur]; omega, ?_, ?_, fun u hu1 hu2 => ?_⟩, N, fun fuel => ?_⟩
  · rw [h.at_current]
    obtain ⟨e, he⟩ := List.exists_mem_of_ne_nil _ h.inv.nonempty
    exact ⟨e, (h.inv.lists.2 e).1 he⟩
  · rw [hlev]; exact n2
  · ext e
    refine ⟨?_, fun h => h.elim⟩
    rintro ⟨h3, h4⟩
    rw [hval] at h4
    have h5 := n3 e (by rw [hlen]; exact h3) (by rw [h.inv.cur] at hu2; omega)
    omega
  · rcases hN fuel with ⟨c', r1, r2, r3, r4⟩ | ⟨r1, r2⟩ | r
    · refine Or.inl ⟨c', r1, ⟨r2, h.stands.same r3, ?_, fun e he hlt => ?_⟩, ?_⟩
      · rw [r2.cur, r4, r3.1, h.inv.cur]; omega
      · rw [hval] at hlt ⊢
        rw [r2.cur, r4, r3.1]
        rw [h.inv.cur] at hlt
        have := n3 e (by rw [hlen]; exact he) (by omega)
        omega
      · rw [r2.cur, r4, r3.1]
    · exact Or.inr (Or.inl ⟨r1, by rw [hlev]; exact r2⟩)
    · exact Or.inr (Or.inr r)

theorem digAll_spec (H : Hashing) {cost : Vec n} {B k : ℤ} : ∀ (cs : List (Info n)) (as : Multiset (Datum n)) (h : Heap (Info n)), h.Ok ikey →
    Multiset.Rel (Tracks cost B) as (cs : Multiset (Info n)) → (∀ c ∈ cs, c.current = k) → ∃ N, ∀ fuel,
    (∃ h' bs, digAll H fuel cs h = .ok h' ∧ h'.Ok ikey ∧ h'.elems = bs + h.elems ∧ Multiset.Rel (Tracks cost k) as bs) ∨
    (digAll H fuel cs h = .error .hang ∧ ∃ d ∈ as, ∃ t, Follows cost d k t ∧ H.size < (d.at cost t).ncard) ∨
    (digAll H fuel cs h = .error .fuel ∧ fuel < N) := by
  intro cs
  induction cs with
  | nil =>
    intro as h ho hr _
    have : as = 0 := by
      rw [Multiset.coe_nil] at hr
      exact Multiset.rel_zero_right.1 hr
    subst this
    exact ⟨0, fun fuel => Or.inl ⟨h, 0, rfl, ho, by simp, Multiset.Rel.zero⟩⟩
  | cons c cs ih =>
    intro as h ho hr hk
    rw [← Multiset.cons_coe, Multiset.rel_cons_right] at hr
    obtain ⟨d, as', hd, hr', rfl⟩ := hr
    have hck := hk c List.mem_cons_self
    obtain ⟨t, ht, N1, hN1⟩ := tracks_next H hd
    rw [hck] at ht
    -- the object after the call does not depend on the fuel
    have hdet : ∀ f f' c1 c2, nextTerm H f c = .ok c1 → nextTerm H f' c = .ok c2 → c1 = c2 := by
      have hm : ∀ f j c1, nextTerm H f c = .ok c1 → nextTerm H (f + j) c = .ok c1 := by
        intro f j c1 h1
        induction j with
        | zero => exact h1
        | succ j ihj =>
          rw [← Nat.add_assoc, nextTerm_mono _ _ _ (by rw [ihj]; intro hc; cases hc), ihj]
      intro f f' c1 c2 h1 h2
      have h3 := hm f f' c1 h1
      have h4 := hm f' f c2 h2
      rw [Nat.add_comm] at h4
      rw [h3] at h4
      cases h4
      rfl
    by_cases hex : ∃ f c1, nextTerm H f c = .ok c1
    · obtain ⟨f, c1, hf⟩ := hex
      have htr : Tracks cost k d c1 := by
        rcases hN1 f with ⟨c', r1, r2, -⟩ | ⟨r1, -⟩ | ⟨r1, -⟩
        · rw [hf] at r1; cases r1; rw [← hck]; exact r2
        · rw [hf] at r1; cases r1
        · rw [hf] at r1; cases r1
      obtain ⟨h1, e1, o1, m1, -⟩ := c78_add ikey c1 h ho
      obtain ⟨N2, hN2⟩ := ih as' h1 o1 hr' fun c' hc' => hk c' (List.mem_cons_of_mem _ hc')
      refine ⟨max N1 N2, fun fuel => ?_⟩
      unfold digAll
      rcases hN1 fuel with ⟨c', r1, r2, -⟩ | ⟨r1, r2⟩ | ⟨r1, r2⟩
      · have := hdet _ _ _ _ r1 hf
        subst this
        rw [r1]
        dsimp only
        rw [e1]
        dsimp only
        rcases hN2 fuel with ⟨h', bs, q1, q2, q3, q4⟩ | ⟨q1, d', hd', q2⟩ | ⟨q1, q2⟩
        · refine Or.inl ⟨h', c' ::ₘ bs, q1, q2, ?_, Multiset.Rel.cons htr q4⟩
          rw [q3, m1, Multiset.cons_add, Multiset.add_cons]
        · exact Or.inr (Or.inl ⟨q1, d', Multiset.mem_cons_of_mem hd', q2⟩)
        · exact Or.inr (Or.inr ⟨q1, lt_of_lt_of_le q2 (le_max_right _ _)⟩)
      · rw [r1]
        exact Or.inr (Or.inl ⟨rfl, d, Multiset.mem_cons_self _ _, t, ht, r2⟩)
      · rw [r1]
        exact Or.inr (Or.inr ⟨rfl, lt_of_lt_of_le r2 (le_max_left _ _)⟩)
    · refine ⟨N1, fun fuel => ?_⟩
      unfold digAll
      rcases hN1 fuel with ⟨c', r1, -⟩ | ⟨r1, r2⟩ | ⟨r1, r2⟩
      · exact absurd ⟨fuel, c', r1⟩ hex
      · rw [r1]
        exact Or.inr (Or.inl ⟨rfl, d, Multiset.mem_cons_self _ _, t, ht, r2⟩)
      · rw [r1]
        exact Or.inr (Or.inr ⟨rfl, r2⟩)

/-! ## The loop -/

/-- What the loop relies on: the turned cones add up to the indicator of `A`; feasible points lie in `A`. -/
structure Setting (cost : Vec n) (ds : List (Datum n)) (A : Set (Vec n)) (matrix : List (ℤ × Vec n)) (single : Bool) : Prop where
  neg : ∀ d ∈ ds, ∀ f ∈ d.fs, inner cost f < 0
  sum : ∀ z, (z ∈ A → (ds.map fun d => expand d.sg d.p d.fs z).sum = 1) ∧ (z ∉ A → (ds.map fun d => expand d.sg d.p d.fs z).sum = 0)
  feasible : ∀ z, feasible matrix z = true → z ∈ A
  exact : single = false → ∀ z ∈ A, Digging.feasible matrix z = true

/-- The state at the beginning of a round. -/
structure State (cost : Vec n) (ds : List (Datum n)) (matrix : List (ℤ × Vec n)) (B : ℤ) (h : Heap (Info n)) : Prop where
  ok : h.Ok ikey
  rel : Multiset.Rel (Tracks cost B) (ds : Multiset (Datum n)) h.elems
  none : ∀ z, feasible matrix z = true → inner cost z < B

/-- **Specification.** The answer: a feasible point of largest cost, and the number of points of `A` with this cost. -/
structure Solves (cost : Vec n) (A : Set (Vec n)) (matrix : List (ℤ × Vec n)) (a : Answer n) : Prop where
  feasible : feasible matrix a.point = true
  maximal : ∀ z, Digging.feasible matrix z = true → inner cost z ≤ inner cost a.point
  finite : {z | z ∈ A ∧ inner cost z = inner cost a.point}.Finite
  number : a.number = ({z | z ∈ A ∧ inner cost z = inner cost a.point}.ncard : ℤ)

/-- A level above all feasible points whose successor has more exponent vectors than the hash table has places. -/
def Overflow (H : Hashing) (cost : Vec n) (ds : List (Datum n)) (matrix : List (ℤ × Vec n)) : Prop :=
  ∃ d ∈ ds, ∃ k t, (∀ z, feasible matrix z = true → inner cost z < k) ∧ Follows cost d k t ∧ H.size < (d.at cost t).ncard

theorem rel_sum {α β : Type*} {r : α → β → Prop} {as : Multiset α} {bs : Multiset β} (h : Multiset.Rel r as bs) (f : α → ℤ) (g : β → ℤ)
    (hfg : ∀ a ∈ as, ∀ b ∈ bs, r a b → f a = g b) : (as.map f).sum = (bs.map g).sum := by
  induction h with
  | zero => rfl
  | @cons a b as bs hab _ ih =>
    rw [Multiset.map_cons, Multiset.sum_cons, Multiset.map_cons, Multiset.sum_cons,
      hfg a (Multiset.mem_cons_self _ _) b (Multiset.mem_cons_self _ _) hab,
      ih fun a' ha' b' hb' => hfg a' (Multiset.mem_cons_of_mem ha') b' (Multiset.mem_cons_of_mem hb')]

theorem rel_left {α β : Type*} {r : α → β → Prop} {as : Multiset α} {bs : Multiset β} (h : Multiset.Rel r as bs) {b : β} (hb : b ∈ bs) : ∃ a ∈ as, r a b := by
  induction h with
  | zero => exact absurd hb (Multiset.notMem_zero b)
  | @cons a b' as bs hab _ ih =>
    rcases Multiset.mem_cons.1 hb with rfl | hb
    · exact ⟨a, Multiset.mem_cons_self _ _, hab⟩
    · obtain ⟨a', h1, h2⟩ := ih hb
      exact ⟨a', Multiset.mem_cons_of_mem h1, h2⟩

theorem rel_right {α β : Type*} {r : α → β → Prop} {as : Multiset α} {bs : Multiset β} (h : Multiset.Rel r as bs) {a : α} (ha : a ∈ as) : ∃ b ∈ bs, r a b := by
  induction h with
  | zero => exact absurd ha (Multiset.notMem_zero a)
  | @cons a' b as bs hab _ ih =>
    rcases Multiset.mem_cons.1 ha with rfl | ha
    · exact ⟨b, Multiset.mem_cons_self _ _, hab⟩
    · obtain ⟨b', h1, h2⟩ := ih ha
      exact ⟨b', Multiset.mem_cons_of_mem h1, h2⟩

theorem foldl_coeff (cs : List (Info n)) (x : ℤ) : cs.foldl (fun s c => s + c.coefficient) x = x + (cs.map (·.coefficient)).sum := by
  induction cs generalizing x with
  | nil => simp
  | cons c cs ih => rw [List.foldl_cons, ih, List.map_cons, List.sum_cons]; ring

/-- One round of the loop: it returns the answer, or goes on with all levels from some `k < B` on dealt with. -/
theorem round {cost : Vec n} {ds : List (Datum n)} {A : Set (Vec n)} {matrix : List (ℤ × Vec n)} {single : Bool}
    (hset : Setting cost ds A matrix single) (hds : ds ≠ []) (H : Hashing) {B : ℤ} {h : Heap (Info n)} (hst : State cost ds matrix B h) :
    (∃ a, Solves cost A matrix a ∧ ∀ innerFuel fuel, mainLoop H matrix single innerFuel (fuel + 1) h = .ok a) ∨
    (∃ k top h2, k < B ∧ (∀ z, feasible matrix z = true → inner cost z < k) ∧ (∃ N, ∀ f,
        (∃ h', digAll H f top h2 = .ok h' ∧ State cost ds matrix k h') ∨ (digAll H f top h2 = .error .hang ∧ Overflow H cost ds matrix) ∨
        (digAll H f top h2 = .error .fuel ∧ f < N)) ∧
      ∀ innerFuel fuel, mainLoop H matrix single innerFuel (fuel + 1) h =
        match digAll H innerFuel top h2 with
        | .error s => .error s
        | .ok h3 => mainLoop H matrix single innerFuel fuel h3) := by
  have h0 : h.elems ≠ 0 := by
    intro h0
    have := hst.rel
    rw [h0, Multiset.rel_zero_right, Multiset.coe_eq_zero] at this
    exact hds this
  obtain ⟨c, h1, e1, o1, m1, hmax, -⟩ := c78_pop ikey h hst.ok h0
  obtain ⟨cs, h2, e2, o2, m2, a2, b2⟩ := popEqual_spec c.current h1.count h1 o1 (le_of_eq (count_card _ h1 o1 rfl).symm)
    (fun c' hc' => hmax c' (by rw [m1]; exact Multiset.mem_cons_of_mem hc'))
  set k := c.current with hk
  have htop : ∀ c' ∈ c :: cs, c'.current = k := by
    intro c' hc'
    rcases List.mem_cons.1 hc' with rfl | hc'
    · rfl
    · exact a2 c' hc'
  have helems : h.elems = ((c :: cs : List (Info n)) : Multiset (Info n)) + h2.elems := by
    rw [m1, m2, ← Multiset.cons_coe, Multiset.cons_add]
  have hrel := hst.rel
  rw [helems, Multiset.rel_add_right] at hrel
  obtain ⟨as0, as1, hr0, hr1, has⟩ := hrel
  have hkB : k < B := by
    obtain ⟨d, hd, htr⟩ := rel_left hr0 (b := c) (by simp)
    exact htr.below
  have hmem0 : ∀ d ∈ as0, d ∈ ds := by
    intro d hd
    have : d ∈ (ds : Multiset (Datum n)) := by rw [has]; exact Multiset.mem_add.2 (Or.inl hd)
    exact Multiset.mem_coe.1 this
  -- the sum of the coefficients
  have hsum : cs.foldl (fun s c => s + c.coefficient) c.coefficient = ({z | z ∈ A ∧ inner cost z = k}.ncard : ℤ) := by
    have hcoe : (ds.map fun d => d.sg * ((d.at cost k).ncard : ℤ)).sum = ((ds : Multiset (Datum n)).map fun d => d.sg * ((d.at cost k).ncard : ℤ)).sum := by
      rw [Multiset.map_coe, Multiset.sum_coe]
    rw [← (level_count ds hset.neg A hset.sum k).2, foldl_coeff, hcoe, has, Multiset.map_add, Multiset.sum_add]
    have s0 : (as0.map fun d => d.sg * ((d.at cost k).ncard : ℤ)).sum = (((c :: cs : List (Info n)) : Multiset (Info n)).map (·.coefficient)).sum := by
      refine rel_sum hr0 _ _ fun d _ c' hc' htr => ?_
      rw [htr.coefficient, htop c' (Multiset.mem_coe.1 hc')]
    have s1 : (as1.map fun d => d.sg * ((d.at cost k).ncard : ℤ)).sum = 0 := by
      apply Multiset.sum_eq_zero
      intro x hx
      obtain ⟨d, hd, rfl⟩ := Multiset.mem_map.1 hx
      obtain ⟨c', hc', htr⟩ := rel_right hr1 hd
      rw [htr.empty (b2 c' hc') hkB, Set.ncard_empty]
      simp
    rw [s0, s1, Multiset.map_coe, Multiset.sum_coe, List.map_cons, List.sum_cons, add_zero]
  -- no point of the set lies above the level
  have habove : ∀ z ∈ A, inner cost z < B → inner cost z ≤ k := by
    intro z hz hzB
    obtain ⟨d, hd, e, he, hze⟩ := covered (cost := cost) ds A (fun z hz => (hset.sum z).1 hz) z hz
    have hd' : d ∈ as0 + as1 := by rw [← has]; exact Multiset.mem_coe.2 hd
    obtain ⟨c', hc', htr⟩ : ∃ c' ∈ h.elems, Tracks cost B d c' := rel_right hst.rel (Multiset.mem_coe.2 hd)
    have h3 := htr.next e he.1 (by rw [hze]; exact hzB)
    rw [hze] at h3
    exact h3.trans (hmax c' hc')
  -- the candidates
  have hcand : ∀ x, x ∈ ((c :: cs).flatMap fun c => c.vectors.map (integralPoint c)).reverse ↔
      ∃ d ∈ ds, ∃ e ∈ d.at cost k, d.p + lincomb e d.fs = x := by
    intro x
    rw [List.mem_reverse, List.mem_flatMap]
    constructor
    · rintro ⟨c', hc', hx⟩
      obtain ⟨e, he, rfl⟩ := List.mem_map.1 hx
      obtain ⟨d, hd, htr⟩ := rel_left hr0 (Multiset.mem_coe.2 hc')
      have he' := (htr.mem_vectors e).1 he
      rw [htop c' hc'] at he'
      exact ⟨d, hmem0 d hd, e, he', (htr.stands.point e he'.1).symm⟩
    · rintro ⟨d, hd, e, he, rfl⟩
      have hd' : d ∈ as0 + as1 := by rw [← has]; exact Multiset.mem_coe.2 hd
      rcases Multiset.mem_add.1 hd' with hd0 | hd1
      · obtain ⟨c', hc', htr⟩ := rel_right hr0 hd0
        refine ⟨c', Multiset.mem_coe.1 hc', List.mem_map.2 ⟨e, (htr.mem_vectors e).2 ?_, htr.stands.point e he.1⟩⟩
        rw [htop c' (Multiset.mem_coe.1 hc')]
        exact he
      · obtain ⟨c', hc', htr⟩ := rel_right hr1 hd1
        rw [htr.empty (b2 c' hc') hkB] at he
        exact he.elim
  have hdig : (∀ z, feasible matrix z = true → inner cost z < k) → ∃ N, ∀ f,
        (∃ h', digAll H f (c :: cs) h2 = .ok h' ∧ State cost ds matrix k h') ∨ (digAll H f (c :: cs) h2 = .error .hang ∧ Overflow H cost ds matrix) ∨
        (digAll H f (c :: cs) h2 = .error .fuel ∧ f < N) := by
    intro hno
    obtain ⟨N, hN⟩ := digAll_spec H (c :: cs) as0 h2 o2 hr0 htop
    refine ⟨N, fun f => ?_⟩
    rcases hN f with ⟨h', bs, r1, r2, r3, r4⟩ | ⟨r1, d, hd, t, r2, r3⟩ | r
    · refine Or.inl ⟨h', r1, r2, ?_, hno⟩
      rw [has, r3]
      refine r4.add (hr1.mono fun d _ c' hc' htr => ⟨htr.inv, htr.stands, b2 c' hc', fun e he hlt => htr.next e he (hlt.trans hkB)⟩)
    · exact Or.inr (Or.inl ⟨r1, d, hmem0 d hd, k, t, hno, r2, r3⟩)
    · exact Or.inr (Or.inr r)
  have hnone : (∀ x ∈ ((c :: cs).flatMap fun c => c.vectors.map (integralPoint c)).reverse, feasible matrix x ≠ true) →
      ∀ z, feasible matrix z = true → inner cost z < k := by
    intro hno z hz
    have hzA := hset.feasible z hz
    refine lt_of_le_of_ne (habove z hzA (hst.none z hz)) fun hzk => ?_
    obtain ⟨d, hd, e, he, hze⟩ := covered (cost := cost) ds A (fun z hz => (hset.sum z).1 hz) z hzA
    rw [hzk] at he
    exact hno z ((hcand z).2 ⟨d, hd, e, he, hze⟩) hz
  have hfin := (level_count ds hset.neg A hset.sum k).1
  by_cases hz : ({z | z ∈ A ∧ inner cost z = k}.ncard : ℤ) = 0
  · have hempty : ∀ z ∈ A, inner cost z ≠ k := by
      intro z hzA hzk
      have h3 : {z | z ∈ A ∧ inner cost z = k} = ∅ := (Set.ncard_eq_zero hfin).1 (by exact_mod_cast hz)
      have h4 : z ∈ {z | z ∈ A ∧ inner cost z = k} := ⟨hzA, hzk⟩
      rw [h3] at h4
      exact h4
    have hno : ∀ z, feasible matrix z = true → inner cost z < k := fun z hz =>
      lt_of_le_of_ne (habove z (hset.feasible z hz) (hst.none z hz)) (hempty z (hset.feasible z hz))
    refine Or.inr ⟨k, c :: cs, h2, hkB, hno, hdig hno, fun innerFuel fuel => ?_⟩
    rw [mainLoop, e1]
    dsimp only
    rw [e2]
    dsimp only
    rw [hsum, if_pos hz]
    rfl
  · cases hfind : (((c :: cs).flatMap fun c => c.vectors.map (integralPoint c)).reverse).find? (feasible matrix) with
    | some x =>
      have hx1 : feasible matrix x = true := List.find?_some hfind
      obtain ⟨d, hd, e, he, hxe⟩ := (hcand x).1 (List.mem_of_find?_eq_some hfind)
      have hxk : inner cost x = k := by rw [← hxe]; exact he.2
      refine Or.inl ⟨⟨x, ({z | z ∈ A ∧ inner cost z = k}.ncard : ℤ)⟩, ⟨hx1, fun z hz => ?_, ?_, ?_⟩, fun innerFuel fuel => ?_⟩
      · show inner cost z ≤ inner cost x
        rw [hxk]
        exact habove z (hset.feasible z hz) (hst.none z hz)
      · show {z | z ∈ A ∧ inner cost z = inner cost x}.Finite
        rw [hxk]; exact hfin
      · show _ = (({z | z ∈ A ∧ inner cost z = inner cost x}.ncard : ℕ) : ℤ)
        rw [hxk]
      · unfold mainLoop
        rw [e1]
        dsimp only
        rw [e2]
        dsimp only
        rw [hsum, if_neg hz, hfind]
    | none =>
      have hno0 : ∀ x ∈ ((c :: cs).flatMap fun c => c.vectors.map (integralPoint c)).reverse, feasible matrix x ≠ true :=
        fun x hx => (List.find?_eq_none.1 hfind) x hx
      have hno := hnone hno0
      have hA : ∃ z ∈ A, inner cost z = k := by
        by_contra hcon
        push Not at hcon
        apply hz
        have : {z | z ∈ A ∧ inner cost z = k} = ∅ := by
          ext z
          refine ⟨?_, fun h => h.elim⟩
          rintro ⟨h3, h4⟩
          exact hcon z h3 h4
        rw [this, Set.ncard_empty]
        rfl
      obtain ⟨z, hzA, hzk⟩ := hA
      obtain ⟨d, hd, e, he, hze⟩ := covered (cost := cost) ds A (fun z hz => (hset.sum z).1 hz) z hzA
      rw [hzk] at he
      have hzc := (hcand z).2 ⟨d, hd, e, he, hze⟩
      have hne : ((c :: cs).flatMap fun c => c.vectors.map (integralPoint c)).reverse ≠ [] := by
        intro hcon
        rw [hcon] at hzc
        cases hzc
      cases hsing : single with
      | false => exact absurd (hset.exact hsing z hzA) (hno0 z hzc)
      | true =>
        refine Or.inr ⟨k, c :: cs, h2, hkB, hno, hdig hno, fun innerFuel fuel => ?_⟩
        rw [mainLoop]
        rw [e1]
        dsimp only
        rw [e2]
        dsimp only
        rw [hsum, if_neg hz, hfind]
        dsimp only
        rw [if_neg hne, if_pos rfl]
        rfl

/-- **Every run.** The loop returns a feasible point of largest cost with the number of points of `A` of this cost, or the hash table is too small, or the
run is longer than the fuel. -/
theorem mainLoop_spec {cost : Vec n} {ds : List (Datum n)} {A : Set (Vec n)} {matrix : List (ℤ × Vec n)} {single : Bool}
    (hset : Setting cost ds A matrix single) (hds : ds ≠ []) (H : Hashing) (innerFuel : ℕ) : ∀ (fuel : ℕ) (B : ℤ) (h : Heap (Info n)), State cost ds matrix B h →
    (∃ a, mainLoop H matrix single innerFuel fuel h = .ok a ∧ Solves cost A matrix a) ∨
    (mainLoop H matrix single innerFuel fuel h = .error .hang ∧ Overflow H cost ds matrix) ∨
    mainLoop H matrix single innerFuel fuel h = .error .fuel := by
  intro fuel
  induction fuel with
  | zero => intro B h _; exact Or.inr (Or.inr rfl)
  | succ fuel ih =>
    intro B h hst
    rcases round hset hds H hst with ⟨a, h1, h2⟩ | ⟨k, top, h2, hk, -, ⟨N, hN⟩, heq⟩
    · exact Or.inl ⟨a, h2 _ _, h1⟩
    · rw [heq]
      rcases hN innerFuel with ⟨h', r1, r2⟩ | ⟨r1, r2⟩ | ⟨r1, -⟩
      · rw [r1]; exact ih k h' r2
      · rw [r1]; exact Or.inr (Or.inl ⟨rfl, r2⟩)
      · rw [r1]; exact Or.inr (Or.inr rfl)

/-- **The end.** If there is a feasible point, the loop ends. -/
theorem mainLoop_ends {cost : Vec n} {ds : List (Datum n)} {A : Set (Vec n)} {matrix : List (ℤ × Vec n)} {single : Bool}
    (hset : Setting cost ds A matrix single) (hds : ds ≠ []) (H : Hashing) (x : Vec n) (hx : feasible matrix x = true) :
    ∀ (j : ℕ) (B : ℤ) (h : Heap (Info n)), State cost ds matrix B h → (B - inner cost x).toNat ≤ j →
    ∃ N F, ∀ innerFuel fuel, N ≤ innerFuel → F ≤ fuel → mainLoop H matrix single innerFuel fuel h ≠ .error .fuel := by
  intro j
  induction j with
  | zero =>
    intro B h hst hj
    have := hst.none x hx
    omega
  | succ j ih =>
    intro B h hst hj
    rcases round hset hds H hst with ⟨a, h1, h2⟩ | ⟨k, top, h2, hk, hno, ⟨N, hN⟩, heq⟩
    · refine ⟨0, 1, fun innerFuel fuel _ hf => ?_⟩
      obtain ⟨fuel, rfl⟩ : ∃ f, fuel = f + 1 := ⟨fuel - 1, by omega⟩
      rw [h2]
      intro hc; cases hc
    · have hxk := hno x hx
      have hN1 : digAll H N top h2 ≠ .error .fuel := by
        intro hc
        rcases hN N with ⟨h', r1, -⟩ | ⟨r1, -⟩ | ⟨-, r2⟩
        · rw [hc] at r1; cases r1
        · rw [hc] at r1; cases r1
        · omega
      have hsame : ∀ f, N ≤ f → digAll H f top h2 = digAll H N top h2 := fun f hf => digAll_mono_le H hf top h2 hN1
      rcases hN N with ⟨h', r1, r2⟩ | ⟨r1, r2⟩ | ⟨r1, r2⟩
      · obtain ⟨N2, F2, h3⟩ := ih k h' r2 (by omega)
        refine ⟨max N N2, F2 + 1, fun innerFuel fuel hi hf => ?_⟩
        obtain ⟨fuel, rfl⟩ : ∃ f, fuel = f + 1 := ⟨fuel - 1, by omega⟩
        rw [heq, hsame _ ((le_max_left _ _).trans hi), r1]
        exact h3 _ _ ((le_max_right _ _).trans hi) (by omega)
      · refine ⟨N, 1, fun innerFuel fuel hi hf => ?_⟩
        obtain ⟨fuel, rfl⟩ : ∃ f, fuel = f + 1 := ⟨fuel - 1, by omega⟩
        rw [heq, hsame _ hi, r1]
        intro hc; cases hc
      · omega

end Verif.Digging

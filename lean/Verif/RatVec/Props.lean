import Verif.RatVec.Lemmas
import Mathlib.Data.List.Forall2
import Mathlib.RingTheory.Coprime.Lemmas
import Mathlib.RingTheory.Int.Basic
import Mathlib.Tactic.LinearCombination

/-! C06, C07: rational vectors, integer scaling, edge directions. -/

namespace Latte.RatVec

/-! ### C06 specification: histories of a rational vector -/

/-- ways to create a vector -/
inductive Init where
  | dim (n : Nat)
  | ints (num : List Int) (den : Int)
  | entries (e : List (Int × Int))

/-- updates; `query` is the scaling request itself, which fills the cache -/
inductive Upd where
  | setEntry (i : Nat) (n d : Int) (lazy : Bool)
  | setNumerator (i : Nat) (n : Int)
  | setDenominator (i : Nat) (d : Int)
  | canonicalize
  | scalarMul (n d : Int)
  | query

/-- code -/
def Init.run : Init → RVec
  | .dim n => ofDim n
  | .ints num den => ofInts num den
  | .entries e => ofEntries e

/-- code -/
def Upd.run (v : RVec) : Upd → Option RVec
  | .setEntry i n d lazy => RatVec.setEntry v i n d lazy
  | .setNumerator i n => RatVec.setNumerator v i n
  | .setDenominator i d => RatVec.setDenominator v i d
  | .canonicalize => some (RatVec.canonicalize v)
  | .scalarMul n d => some (RatVec.scalarMul v n d)
  | .query => some (scale v).2.2

/-- code -/
def runAll (v : RVec) : List Upd → Option RVec
  | [] => some v
  | u :: us => (u.run v).bind fun v' => runAll v' us

/-- no zero denominators are written -/
def Init.NonZero : Init → Prop
  | .dim _ => True
  | .ints _ den => den ≠ 0
  | .entries e => ∀ x ∈ e, x.2 ≠ 0

/-- no zero denominators are written -/
def Upd.NonZero : Upd → Prop
  | .setEntry _ _ d _ => d ≠ 0
  | .scalarMul _ d => d ≠ 0
  | .setDenominator _ d => d ≠ 0
  | _ => True

/-- intended meaning: the vector of rational numbers (numerator update keeps the stored denominator, so it is given
the denominator `d` currently stored) -/
def Init.exact : Init → List ℚ
  | .dim n => List.replicate n 0
  | .ints num den => num.map (fun (n : Int) => (n : ℚ) / den)
  | .entries e => e.map (fun x => (x.1 : ℚ) / x.2)

theorem init_ok (i : Init) (h : i.NonZero) :
    DenOk i.run ∧ CacheOk i.run ∧ i.run.ents.map val = i.exact := by
  cases i with
  | dim n =>
    refine ⟨?_, fun hc => by simp [Init.run, ofDim] at hc, ?_⟩
    · intro e he
      simp only [Init.run, ofDim, List.mem_replicate] at he
      rw [he.2]; decide
    · simp [Init.run, ofDim, Init.exact, val]
  | ints num den =>
    refine ⟨?_, fun _ => ⟨h, ?_⟩, ?_⟩
    · intro e he
      simp only [Init.run, ofInts, List.mem_map] at he
      obtain ⟨n, _, rfl⟩ := he; exact h
    · simp [Init.run, ofInts, val]
    · simp [Init.run, ofInts, Init.exact, val]
  | entries e =>
    exact ⟨h, fun hc => by simp [Init.run, ofEntries] at hc, rfl⟩

theorem set_val (es : List (Int × Int)) (i : Nat) (e : Int × Int) :
    (es.set i e).map val = (es.map val).set i (val e) := by
  simp [List.map_set]

theorem denOk_set {es : List (Int × Int)} (h : ∀ e ∈ es, e.2 ≠ 0) (i : Nat) (e : Int × Int) (he : e.2 ≠ 0) :
    ∀ x ∈ es.set i e, x.2 ≠ 0 := by
  intro x hx
  rcases List.mem_or_eq_of_mem_set hx with h1 | h1
  · exact h x h1
  · rw [h1]; exact he

/-- one update: invariants are kept and the vector of values changes as intended -/
theorem upd_ok (v : RVec) (hd : DenOk v) (hc : CacheOk v) (u : Upd) (hu : u.NonZero) (v' : RVec)
    (h : u.run v = some v') :
    DenOk v' ∧ CacheOk v' ∧
    (match u with
      | .setEntry i n d _ => v'.ents.map val = (v.ents.map val).set i ((n : ℚ) / d)
      | .setNumerator i n => ∃ e, v.ents[i]? = some e ∧ v'.ents.map val = (v.ents.map val).set i ((n : ℚ) / e.2)
      | .setDenominator i d => ∃ e, v.ents[i]? = some e ∧ v'.ents.map val = (v.ents.map val).set i ((e.1 : ℚ) / d)
      | .canonicalize => v'.ents.map val = v.ents.map val
      | .scalarMul n d => v'.ents.map val = (v.ents.map val).map (fun (q : ℚ) => q * ((n : ℚ) / d))
      | .query => v'.ents.map val = v.ents.map val) := by
  cases u with
  | setEntry i n d lazy =>
    simp only [Upd.run, RatVec.setEntry] at h
    by_cases hi : i < v.ents.length
    swap
    · rw [if_neg hi] at h; cases h
    rw [if_pos hi] at h
    have hden := denOk_set hd i (n, d) hu
    cases lazy with
    | true =>
      simp only [if_true, Option.some.injEq] at h
      subst h
      exact ⟨hden, fun hc => by simp at hc, set_val _ _ _⟩
    | false =>
      simp only [Bool.false_eq_true, if_false, Option.some.injEq] at h
      subst h
      have := compute_ok { v with ents := v.ents.set i (n, d) } hden
      exact ⟨hden, this.1, set_val _ _ _⟩
  | setNumerator i n =>
    simp only [Upd.run, RatVec.setNumerator, Option.map_eq_some_iff] at h
    obtain ⟨e, he, rfl⟩ := h
    have hden := denOk_set hd i (n, e.2) (hd e (List.mem_of_getElem? he))
    have := compute_ok { v with ents := v.ents.set i (n, e.2) } hden
    exact ⟨hden, this.1, e, he, set_val _ _ _⟩
  | setDenominator i d =>
    simp only [Upd.run, RatVec.setDenominator, Option.map_eq_some_iff] at h
    obtain ⟨e, he, rfl⟩ := h
    have hden := denOk_set hd i (e.1, d) hu
    have := compute_ok { v with ents := v.ents.set i (e.1, d) } hden
    exact ⟨hden, this.1, e, he, set_val _ _ _⟩
  | canonicalize =>
    simp only [Upd.run, Option.some.injEq] at h
    subst h
    have := canonicalize_spec v hd hc
    exact ⟨this.1, this.2.1, this.2.2.2.1⟩
  | scalarMul n d =>
    simp only [Upd.run, Option.some.injEq, RatVec.scalarMul] at h
    subst h
    have hden : DenOk { v with ents := v.ents.map (fun e => (e.1 * n, e.2 * d)), computed := false } := by
      intro e he
      simp only [List.mem_map] at he
      obtain ⟨x, hx, rfl⟩ := he
      exact mul_ne_zero (hd x hx) hu
    have := canonicalize_spec _ hden (fun hc => by simp at hc)
    refine ⟨this.1, this.2.1, this.2.2.2.1.trans ?_⟩
    simp only [List.map_map]
    apply List.map_congr_left
    intro e _
    simp only [Function.comp, val]
    push_cast
    rw [mul_div_mul_comm]
  | query =>
    simp only [Upd.run, Option.some.injEq, scale] at h
    subst h
    split_ifs with hcomp
    · exact ⟨hd, hc, rfl⟩
    · have := compute_ok v hd
      exact ⟨hd, this.1, rfl⟩

/-- **C06** After every history of updates with non-zero denominators, the integer vector `u` and factor `s`
returned by the scaling request satisfy `u_i / s = v_i` for the current entries `v` — also when the answer comes from
the cache. -/
theorem c06_scale_exact (i : Init) (hi : i.NonZero) (us : List Upd) (hus : ∀ u ∈ us, u.NonZero) (v : RVec)
    (h : runAll i.run us = some v) :
    (scale v).2.1 ≠ 0 ∧
    (scale v).1.map (fun (u : Int) => (u : ℚ) / (scale v).2.1) = v.ents.map (fun e => (e.1 : ℚ) / e.2) := by
  have gen : ∀ (us : List Upd) (v0 v : RVec), (∀ u ∈ us, u.NonZero) → DenOk v0 → CacheOk v0 →
      runAll v0 us = some v → DenOk v ∧ CacheOk v := by
    intro us
    induction us with
    | nil =>
      intro v0 v _ h1 h2 h
      simp only [runAll, Option.some.injEq] at h
      subst h; exact ⟨h1, h2⟩
    | cons u us ih =>
      intro v0 v hu h1 h2 h
      simp only [runAll, Option.bind_eq_some_iff] at h
      obtain ⟨v1, hv1, h⟩ := h
      have := upd_ok v0 h1 h2 u (hu u (List.mem_cons_self ..)) v1 hv1
      exact ih v1 v (fun x hx => hu x (List.mem_cons_of_mem _ hx)) this.1 this.2.1 h
  obtain ⟨hd0, hc0, _⟩ := init_ok i hi
  obtain ⟨hd, hc⟩ := gen us _ _ hus hd0 hc0 h
  unfold scale
  simp only
  split_ifs with hcomp
  · exact hc hcomp
  · have := compute_ok v hd
    exact this.1 this.2.2.1

/-- **C06** each update has exactly its intended effect on the vector of values. -/
theorem c06_update_effect (i : Init) (hi : i.NonZero) (us : List Upd) (hus : ∀ u ∈ us, u.NonZero) (v : RVec)
    (h : runAll i.run us = some v) (u : Upd) (hu : u.NonZero) (v' : RVec) (h' : u.run v = some v') :
    (match u with
      | .setEntry i n d _ => v'.ents.map val = (v.ents.map val).set i ((n : ℚ) / d)
      | .setNumerator i n => ∃ e, v.ents[i]? = some e ∧ v'.ents.map val = (v.ents.map val).set i ((n : ℚ) / e.2)
      | .setDenominator i d => ∃ e, v.ents[i]? = some e ∧ v'.ents.map val = (v.ents.map val).set i ((e.1 : ℚ) / d)
      | .canonicalize => v'.ents.map val = v.ents.map val
      | .scalarMul n d => v'.ents.map val = (v.ents.map val).map (fun (q : ℚ) => q * ((n : ℚ) / d))
      | .query => v'.ents.map val = v.ents.map val) := by
  have gen : ∀ (us : List Upd) (v0 v : RVec), (∀ u ∈ us, u.NonZero) → DenOk v0 → CacheOk v0 →
      runAll v0 us = some v → DenOk v ∧ CacheOk v := by
    intro us
    induction us with
    | nil =>
      intro v0 v _ h1 h2 h
      simp only [runAll, Option.some.injEq] at h
      subst h; exact ⟨h1, h2⟩
    | cons u us ih =>
      intro v0 v hu h1 h2 h
      simp only [runAll, Option.bind_eq_some_iff] at h
      obtain ⟨v1, hv1, h⟩ := h
      have := upd_ok v0 h1 h2 u (hu u (List.mem_cons_self ..)) v1 hv1
      exact ih v1 v (fun x hx => hu x (List.mem_cons_of_mem _ hx)) this.1 this.2.1 h
  obtain ⟨hd0, hc0, _⟩ := init_ok i hi
  obtain ⟨hd, hc⟩ := gen us _ _ hus hd0 hc0 h
  exact (upd_ok v hd hc u hu v' h').2.2

theorem dvd_of_scaled {n d t : Int} (hd : d ≠ 0) (hg : Int.gcd n d = 1) (h : ∃ z : Int, (t : ℚ) * ((n : ℚ) / d) = z) :
    d ∣ t := by
  obtain ⟨z, hz⟩ := h
  have hdq : (d : ℚ) ≠ 0 := by exact_mod_cast hd
  have h1 : t * n = z * d := by
    have : (t : ℚ) * n = z * d := by
      field_simp at hz
      linarith
    exact_mod_cast this
  have h2 : d ∣ t * n := ⟨z, by rw [h1]; ring⟩
  have hcop : IsCoprime d n := by
    rw [Int.isCoprime_iff_gcd_eq_one, Int.gcd_comm]; exact hg
  exact hcop.dvd_of_dvd_mul_right h2

/-- **C06** Minimality: for a vector brought to lowest terms, a scaling request not answered from a pre-set cache
returns the least common denominator — an integer `t` clears all denominators iff it is a multiple of the factor;
and the factor is positive when the denominators are. -/
theorem c06_scale_minimal (e : List (Int × Int)) (he : ∀ x ∈ e, x.2 ≠ 0) (t : Int) :
    let s := (scale (canonicalize (ofEntries e))).2.1
    ((∀ x ∈ e, ∃ z : Int, (t : ℚ) * ((x.1 : ℚ) / x.2) = z) ↔ s ∣ t) ∧
    ((∀ x ∈ e, 0 < x.2) → 0 < s) := by
  have hden : ∀ x ∈ e.map canonEntry, x.2 ≠ 0 := by
    intro x hx
    obtain ⟨y, hy, rfl⟩ := List.mem_map.1 hx
    exact (canonEntry_spec y (he y hy)).1
  have hs : (scale (canonicalize (ofEntries e))).2.1 = factorOf (e.map canonEntry) := by
    simp [scale, canonicalize, ofEntries, compute, factorOf]
  obtain ⟨h1, h2, h3, h4⟩ := factorOf_spec _ hden
  intro s
  have hs' : s = factorOf (e.map canonEntry) := hs
  rw [hs']
  refine ⟨⟨?_, ?_⟩, ?_⟩
  · intro hall
    apply h3
    intro x hx
    obtain ⟨y, hy, rfl⟩ := List.mem_map.1 hx
    have hc := canonEntry_spec y (he y hy)
    apply dvd_of_scaled hc.1 hc.2.2.1
    obtain ⟨z, hz⟩ := hall y hy
    refine ⟨z, ?_⟩
    have := hc.2.1
    unfold val at this
    rw [this]; exact hz
  · intro hdvd x hx
    have hc := canonEntry_spec x (he x hx)
    obtain ⟨k, hk⟩ := (h2 _ (List.mem_map_of_mem hx)).trans hdvd
    refine ⟨k * (canonEntry x).1, ?_⟩
    have hv := hc.2.1
    unfold val at hv
    rw [← hv, hk]
    have : ((canonEntry x).2 : ℚ) ≠ 0 := by exact_mod_cast hc.1
    push_cast; field_simp
  · intro hp
    apply h4
    intro x hx
    obtain ⟨y, hy, rfl⟩ := List.mem_map.1 hx
    exact (canonEntry_spec y (he y hy)).2.2.2 (hp y hy)

/-- non-vacuity: (3/6, -5/4) is reduced to (1/2, -5/4), scaled to (2, -5)/4. -/
example : let r := scale (canonicalize (ofEntries [(3, 6), (-5, 4)])); (r.1, r.2.1) = ([2, -5], 4) := by decide
example : (runAll (Init.dim 2).run [.setEntry 0 1 2 true, .setEntry 1 (-5) 3 false, .scalarMul 6 4, .query]).map
    (fun v => (v.ents, (scale v).1, (scale v).2.1)) = some ([(3, 4), (-5, 2)], [3, -10], 4) := by decide

/-! #### normalisation to integers (used for facet normals) -/

theorem normEntry_spec (d : Int) (hd : 0 < d) (e : Int × Int) (he : 0 < e.2) :
    0 < (normEntry d e).2 ∧ val (normEntry d e) = d * val e ∧ (e.2 = 1 → (normEntry d e).2 = 1) ∧
    (e.2 = d → (normEntry d e).2 = 1) := by
  have hg : 0 < (Int.gcd d e.2 : Int) := by exact_mod_cast Int.gcd_pos_of_ne_zero_left _ hd.ne'
  unfold normEntry
  simp only
  rw [fdiv_dvd (Int.gcd_dvd_left ..), fdiv_dvd (Int.gcd_dvd_right ..)]
  refine ⟨Int.ediv_pos_of_pos_of_dvd he hg.le (Int.gcd_dvd_right ..), ?_, ?_, ?_⟩
  · have hgq : ((Int.gcd d e.2 : Int) : ℚ) ≠ 0 := by exact_mod_cast hg.ne'
    have hq : (e.2 : ℚ) ≠ 0 := by exact_mod_cast he.ne'
    unfold val
    simp only [Int.cast_mul]
    rw [Int.cast_div (Int.gcd_dvd_left ..) hgq, Int.cast_div (Int.gcd_dvd_right ..) hgq]
    field_simp
  · intro h; rw [h]; simp
  · intro h
    have : (Int.gcd d e.2 : Int) = e.2 := by
      rw [h, Int.gcd_self, Int.natAbs_of_nonneg hd.le]
    rw [this]; exact Int.ediv_self he.ne'

theorem normLoop_spec (k i : Nat) (es : List (Int × Int)) (hk : i + k = es.length) (hp : ∀ e ∈ es, 0 < e.2)
    (h1 : ∀ j e, j < i → es[j]? = some e → e.2 = 1) :
    (∀ e ∈ normLoop k i es, e.2 = 1) ∧
    ∃ c : Int, 0 < c ∧ (normLoop k i es).map val = (es.map val).map (fun (q : ℚ) => (c : ℚ) * q) := by
  induction k generalizing i es with
  | zero =>
    refine ⟨?_, 1, one_pos, by simp [normLoop]⟩
    intro e he
    obtain ⟨j, hj, rfl⟩ := List.getElem_of_mem (show e ∈ es from he)
    exact h1 j _ (by omega) (List.getElem?_eq_getElem hj)
  | succ k ih =>
    have hi : i < es.length := by omega
    unfold normLoop
    have hget : es.getD i (0, 1) = es[i] := by simp [List.getD, List.getElem?_eq_getElem hi]
    simp only [hget]
    have hpos := hp _ (List.getElem_mem hi)
    by_cases hd : es[i].2 > 1
    · rw [if_pos hd]
      obtain ⟨h2, c, hc, h3⟩ := ih (i + 1) (es.map (normEntry es[i].2)) (by simp; omega)
        (by
          intro e he
          obtain ⟨x, hx, rfl⟩ := List.mem_map.1 he
          exact (normEntry_spec _ hpos x (hp x hx)).1)
        (by
          intro j e hj he
          rw [List.getElem?_map, Option.map_eq_some_iff] at he
          obtain ⟨x, hx, rfl⟩ := he
          have hxm := List.mem_of_getElem? hx
          rcases Nat.lt_succ_iff_lt_or_eq.1 hj with h | h
          · exact (normEntry_spec _ hpos x (hp x hxm)).2.2.1 (h1 j x h hx)
          · subst h
            rw [List.getElem?_eq_getElem hi, Option.some.injEq] at hx
            exact (normEntry_spec _ hpos x (hp x hxm)).2.2.2 (by rw [hx]))
      refine ⟨h2, c * es[i].2, mul_pos hc hpos, ?_⟩
      rw [h3]
      simp only [List.map_map]
      apply List.map_congr_left
      intro e he
      simp only [Function.comp]
      rw [(normEntry_spec _ hpos e (hp e he)).2.1]
      push_cast; ring
    · rw [if_neg hd]
      apply ih (i + 1) es (by omega) hp
      intro j e hj he
      rcases Nat.lt_succ_iff_lt_or_eq.1 hj with h | h
      · exact h1 j e h he
      · subst h
        rw [List.getElem?_eq_getElem hi, Option.some.injEq] at he
        rw [← he]; omega

/-- **C06** Normalising a vector with positive denominators makes every denominator 1 and multiplies the whole vector
by one positive integer. -/
theorem c06_normalize (e : List (Int × Int)) (he : ∀ x ∈ e, 0 < x.2) :
    (∀ x ∈ (normalize (ofEntries e)).ents, x.2 = 1) ∧
    ∃ c : Int, 0 < c ∧ (normalize (ofEntries e)).ents.map val = (e.map val).map (fun (q : ℚ) => (c : ℚ) * q) := by
  have : (normalize (ofEntries e)).ents = normLoop e.length 0 e := by
    unfold normalize
    simp only
    split_ifs <;> rfl
  rw [this]
  exact normLoop_spec e.length 0 e (by simp) he (by intro j e hj; omega)

/-- non-vacuity: (1/2, 2/3, 5/6) becomes 6·(1/2, 2/3, 5/6) -/
example : (normalize (ofEntries [(1, 2), (2, 3), (5, 6)])).ents = [(3, 1), (4, 1), (5, 1)] := by decide

/-! ### C07 -/

theorem gcd_fold_spec (xs : List Int) (g0 : Int) :
    let g := xs.foldl (fun g y => (Int.gcd g y : Int)) g0
    (g ∣ g0 ∧ ∀ x ∈ xs, g ∣ x) ∧ ∀ d, d ∣ g0 → (∀ x ∈ xs, d ∣ x) → d ∣ g := by
  induction xs generalizing g0 with
  | nil => exact ⟨⟨dvd_rfl, by simp⟩, fun d h _ => h⟩
  | cons y ys ih =>
    obtain ⟨⟨h1, h2⟩, h3⟩ := ih (Int.gcd g0 y : Int)
    refine ⟨⟨h1.trans (Int.gcd_dvd_left ..), ?_⟩, ?_⟩
    · intro x hx
      rcases List.mem_cons.1 hx with rfl | hx
      · exact h1.trans (Int.gcd_dvd_right ..)
      · exact h2 x hx
    · intro d hd hall
      exact h3 d (Int.dvd_coe_gcd hd (hall y (List.mem_cons_self ..))) (fun x hx => hall x (List.mem_cons_of_mem _ hx))

theorem gcdAll_spec (xs : List Int) (hne : xs ≠ []) :
    0 ≤ gcdAll xs ∧ (∀ x ∈ xs, gcdAll xs ∣ x) ∧ (∀ d, (∀ x ∈ xs, d ∣ x) → d ∣ gcdAll xs) := by
  cases xs with
  | nil => exact absurd rfl hne
  | cons x xs =>
    obtain ⟨⟨h1, h2⟩, h3⟩ := gcd_fold_spec xs x
    unfold gcdAll
    refine ⟨by positivity, ?_, ?_⟩
    · intro y hy
      rw [Int.natAbs_dvd]
      rcases List.mem_cons.1 hy with rfl | hy
      · exact h1
      · exact h2 y hy
    · intro d hd
      rw [Int.dvd_natAbs]
      exact h3 d (hd x (List.mem_cons_self ..)) (fun y hy => hd y (List.mem_cons_of_mem _ hy))

/-- entries whose denominators are positive, as produced by every reader of vertices -/
def PosDen (e : List (Int × Int)) : Prop := ∀ x ∈ e, 0 < x.2

/-- an integer vector without common divisor -/
def Primitive (r : List Int) : Prop := ∀ d : Int, (∀ x ∈ r, d ∣ x) → d ∣ 1

theorem scale_ofEntries (e : List (Int × Int)) (h : PosDen e) :
    0 < (scale (ofEntries e)).2.1 ∧
    (scale (ofEntries e)).1 = e.map (fun x => x.1 * ((scale (ofEntries e)).2.1.fdiv x.2)) ∧
    (scale (ofEntries e)).1.map (fun (u : Int) => (u : ℚ) / (scale (ofEntries e)).2.1) = e.map val := by
  have hd : ∀ x ∈ e, x.2 ≠ 0 := fun x hx => (h x hx).ne'
  have := compute_ok (ofEntries e) hd
  refine ⟨?_, rfl, (this.1 rfl).2⟩
  exact (factorOf_spec e hd).2.2.2 h

/-- **C07** For two points with positive denominators and equal dimension `n ≥ 1`: if they differ, the constructed ray
exists, is a positive rational multiple of `w - v`, and is primitive; if they coincide, the code divides by zero. -/
theorem c07_constructRay (v w : List (Int × Int)) (hv : PosDen v) (hw : PosDen w) (hl : v.length = w.length)
    (hn : v ≠ []) :
    (v.map val ≠ w.map val → ∃ r, constructRay (ofEntries v) (ofEntries w) = some r ∧ Primitive r ∧
      ∃ c : ℚ, 0 < c ∧ r.map (fun (x : Int) => (x : ℚ)) = List.zipWith (fun a b => c * (val b - val a)) v w) ∧
    (v.map val = w.map val → constructRay (ofEntries v) (ofEntries w) = none) := by
  obtain ⟨sv, iv, ev⟩ := scale_ofEntries v hv
  obtain ⟨sw, iw, ew⟩ := scale_ofEntries w hw
  obtain ⟨vi, hvi⟩ : ∃ x, (scale (ofEntries v)).1 = x := ⟨_, rfl⟩
  obtain ⟨vs, hvs⟩ : ∃ x, (scale (ofEntries v)).2.1 = x := ⟨_, rfl⟩
  obtain ⟨wi, hwi⟩ : ∃ x, (scale (ofEntries w)).1 = x := ⟨_, rfl⟩
  obtain ⟨ws, hws⟩ : ∃ x, (scale (ofEntries w)).2.1 = x := ⟨_, rfl⟩
  rw [hvi, hvs] at ev iv
  rw [hvs] at sv
  rw [hwi, hws] at ew iw
  rw [hws] at sw
  have hcpos := lcmZ_pos sv sw
  have hvlen : vi.length = v.length := by rw [iv]; simp
  have hwlen : wi.length = w.length := by rw [iw]; simp
  set common := lcmZ vs ws with hcommon
  set r := List.zipWith (fun x y => common.fdiv ws * x - common.fdiv vs * y) wi vi with hr
  have hcons : constructRay (ofEntries v) (ofEntries w) =
      (if r = [] ∨ v.length ≠ w.length then none else
        if gcdAll r = 0 then none else
          if gcdAll r ≠ 1 then some (r.map (fun x => x.fdiv (gcdAll r))) else some r) := by
    unfold constructRay
    simp only [hvi, hvs, hwi, hws]
    rfl
  have hrne : r ≠ [] := by
    intro h
    have : r.length = 0 := by rw [h]; rfl
    rw [hr, List.length_zipWith, hvlen, hwlen, ← hl, min_self] at this
    exact hn (List.length_eq_zero_iff.1 this)
  rw [if_neg (by rintro (h | h); exact hrne h; exact h hl)] at hcons
  -- r as rationals
  have hvsq : (vs : ℚ) ≠ 0 := by exact_mod_cast sv.ne'
  have hwsq : (ws : ℚ) ≠ 0 := by exact_mod_cast sw.ne'
  have hrq : r.map (fun (x : Int) => (x : ℚ)) = List.zipWith (fun a b => (common : ℚ) * (val b - val a)) v w := by
    apply List.ext_getElem
    · simp [hr, hvlen, hwlen, hl]
    · intro i h1 h2
      have hiv : i < v.length := by simp at h2; omega
      have hiw : i < w.length := by simp at h2; omega
      have e1 : ((vi[i]'(by omega) : Int) : ℚ) / vs = val v[i] := by
        have := congrArg (fun l => l[i]?) ev
        simpa [List.getElem?_map, List.getElem?_eq_getElem (show i < vi.length by omega),
          List.getElem?_eq_getElem hiv] using this
      have e2 : ((wi[i]'(by omega) : Int) : ℚ) / ws = val w[i] := by
        have := congrArg (fun l => l[i]?) ew
        simpa [List.getElem?_map, List.getElem?_eq_getElem (show i < wi.length by omega),
          List.getElem?_eq_getElem hiw] using this
      simp only [hr, List.getElem_map, List.getElem_zipWith]
      generalize vi[i]'(by omega) = p at *
      generalize wi[i]'(by omega) = q at *
      rw [← e1, ← e2]
      have h1 : common.fdiv ws = common / ws := fdiv_dvd (dvd_lcmZ_right vs ws)
      have h2 : common.fdiv vs = common / vs := fdiv_dvd (dvd_lcmZ_left vs ws)
      clear_value r
      rw [h1, h2]
      push_cast
      rw [Int.cast_div (dvd_lcmZ_left vs ws) hvsq, Int.cast_div (dvd_lcmZ_right vs ws) hwsq]
      field_simp
      rw [← hcommon]; ring
  have hcq : (0 : ℚ) < common := by exact_mod_cast hcpos
  obtain ⟨g0, g1, g2⟩ := gcdAll_spec r hrne
  -- r zero iff points equal
  have hzero : gcdAll r = 0 ↔ v.map val = w.map val := by
    constructor
    · intro h
      apply List.ext_getElem
      · simp [hl]
      · intro i h1 h2
        have hi : i < r.length := by simp [hr, hvlen, hwlen]; simp at h1 h2; omega
        have : r[i] = 0 := by
          have := g1 _ (List.getElem_mem hi)
          rw [h] at this; exact Int.zero_dvd.mp this
        have h3 := congrArg (fun l => l[i]?) hrq
        simp only [List.length_map] at h1 h2
        simp only [List.getElem?_map, List.getElem?_eq_getElem hi, List.getElem?_zipWith,
          List.getElem?_eq_getElem h1, List.getElem?_eq_getElem h2, Option.map_some, this] at h3
        simp only [Int.cast_zero, Option.some.injEq] at h3
        have h4 := (mul_eq_zero.1 h3.symm).resolve_left hcq.ne'
        simp only [List.getElem_map]
        linarith
    · intro h
      have hall : ∀ x ∈ r, x = 0 := by
        intro x hx
        obtain ⟨i, hi, rfl⟩ := List.getElem_of_mem hx
        have hiv : i < v.length := by simp [hr, hvlen, hwlen] at hi; omega
        have hiw : i < w.length := by omega
        have h3 := congrArg (fun l => l[i]?) hrq
        have h4 := congrArg (fun l => l[i]?) h
        simp only [List.getElem?_map, List.getElem?_eq_getElem hiv, List.getElem?_eq_getElem hiw, Option.map_some,
          Option.some.injEq] at h4
        simp only [List.getElem?_map, List.getElem?_eq_getElem hi, List.getElem?_zipWith,
          List.getElem?_eq_getElem hiv, List.getElem?_eq_getElem hiw, Option.map_some, h4] at h3
        simp only [sub_self, mul_zero, Option.some.injEq, Int.cast_eq_zero] at h3
        exact h3
      have : (0 : Int) ∣ gcdAll r := g2 0 (fun x hx => by rw [hall x hx])
      exact Int.zero_dvd.mp this
  constructor
  · intro hne
    have hg : gcdAll r ≠ 0 := fun h => hne (hzero.1 h)
    have hgpos : 0 < gcdAll r := lt_of_le_of_ne g0 (Ne.symm hg)
    have hgq : (0 : ℚ) < gcdAll r := by exact_mod_cast hgpos
    rw [if_neg hg] at hcons
    have hprim : Primitive (r.map (fun x => x.fdiv (gcdAll r))) := by
      intro d hd
      have : d * gcdAll r ∣ gcdAll r := by
        apply g2
        intro x hx
        have h1 := hd _ (List.mem_map_of_mem hx)
        obtain ⟨k, hk⟩ := h1
        rw [fdiv_dvd (g1 x hx)] at hk
        refine ⟨k, ?_⟩
        have := Int.ediv_mul_cancel (g1 x hx)
        rw [← this, hk]; ring
      obtain ⟨k, hk⟩ := this
      refine ⟨k, ?_⟩
      have h1 : gcdAll r * 1 = gcdAll r * (d * k) := by rw [mul_one]; linear_combination hk
      exact mul_left_cancel₀ hg h1
    have hpos : (r.map (fun x => x.fdiv (gcdAll r))).map (fun (x : Int) => (x : ℚ)) =
        List.zipWith (fun a b => (common / gcdAll r : ℚ) * (val b - val a)) v w := by
      have h1 : (r.map (fun x => x.fdiv (gcdAll r))).map (fun (x : Int) => (x : ℚ)) =
          (r.map (fun (x : Int) => (x : ℚ))).map (fun q => q / (gcdAll r : ℚ)) := by
        simp only [List.map_map]
        apply List.map_congr_left
        intro x hx
        simp only [Function.comp]
        rw [fdiv_dvd (g1 x hx), Int.cast_div (g1 x hx) hgq.ne']
      rw [h1, hrq, List.map_zipWith]
      congr 1
      funext a b
      ring
    by_cases h1 : gcdAll r = 1
    · rw [if_neg (by simpa using h1)] at hcons
      have hsame : r.map (fun x => x.fdiv (gcdAll r)) = r := by
        rw [h1]; simp
      rw [hsame] at hprim hpos
      exact ⟨r, hcons, hprim, _, div_pos hcq hgq, hpos⟩
    · rw [if_pos h1] at hcons
      exact ⟨_, hcons, hprim, _, div_pos hcq hgq, hpos⟩
  · intro heq
    rw [if_pos (hzero.2 heq)] at hcons
    exact hcons

/-- non-vacuity -/
example : constructRay (ofEntries [(1, 2), (0, 1)]) (ofEntries [(2, 1), (1, 1)]) = some [3, 2] := by decide
/-- with a negative denominator (which no reader produces) the direction is reversed: hypothesis needed -/
example : constructRay (ofEntries [(0, 1)]) (ofEntries [(-1, -1)]) = some [-1] := by decide

end Latte.RatVec

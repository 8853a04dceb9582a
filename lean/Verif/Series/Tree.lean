import Verif.Series.Arrays

/-!
# `Taylor_Expansion` of shared expressions with stored results

`Den T p r f`: in the pool `p` the node `r` stands for the power series `f`.  The expansion of a node is right whatever has been expanded before, and stored
results never go stale.
-/

namespace Verif.Series

open PowerSeries
open Verif.PolySubst (Arr)
open Verif.ExpSubst (Fail)

/-- The node comes before the place `i` in the list of nodes. -/
def Ref.below (i : ℕ) : Ref → Prop
  | .poly j => j < i
  | .tn _ => True

/-- **Specification.** The value of a node: a monomial, the sum, product, (scaled and rounded) quotient or power of the values of the children.  Only nodes in
use have a value. -/
inductive Den (T : ℤ) (p : Pool) : Ref → PowerSeries ℤ → Prop
  | tn (i : ℕ) (hi : i < p.usedT) (h : 0 ≤ (p.tn i).exp) : Den T p (.tn i) (C (p.tn i).coef * X ^ (p.tn i).exp.toNat)
  | add (i : ℕ) (hi : i < p.usedP) (hop : (p.poly i).op = .add) (fs : List (PowerSeries ℤ)) (hn : (p.poly i).num = fs.length)
      (hlt : ∀ k < fs.length, ((p.poly i).child k).below i) (h : ∀ k (hk : k < fs.length), Den T p ((p.poly i).child k) fs[k]) :
      Den T p (.poly i) fs.sum
  | mul (i : ℕ) (hi : i < p.usedP) (hop : (p.poly i).op = .mul) (fs : List (PowerSeries ℤ)) (h0 : 0 < fs.length) (hn : (p.poly i).num = fs.length)
      (hlt : ∀ k < fs.length, ((p.poly i).child k).below i) (h : ∀ k (hk : k < fs.length), Den T p ((p.poly i).child k) fs[k]) :
      Den T p (.poly i) fs.prod
  | div (i : ℕ) (hi : i < p.usedP) (hop : (p.poly i).op = .div) (f g : PowerSeries ℤ) (hg : constantCoeff g ≠ 0)
      (hlt0 : ((p.poly i).child 0).below i) (hlt1 : ((p.poly i).child 1).below i)
      (hf : Den T p ((p.poly i).child 0) f) (hgd : Den T p ((p.poly i).child 1) g) : Den T p (.poly i) (divSeries T f g)
  | exp (i : ℕ) (hi : i < p.usedP) (hop : (p.poly i).op = .exp) (f : PowerSeries ℤ) (hn : (p.poly i).num ≠ 0)
      (hlt : ((p.poly i).child 0).below i) (hf : Den T p ((p.poly i).child 0) f) : Den T p (.poly i) (f ^ (p.poly i).num)

/-- A node has at most one value. -/
theorem Den.unique {T : ℤ} {p : Pool} {r : Ref} {f g : PowerSeries ℤ} (h : Den T p r f) : Den T p r g → f = g := by
  induction h generalizing g with
  | tn i hi h => intro h'; cases h'; rfl
  | add i hi hop fs hn hlt h ih =>
    intro h'
    cases h' with
    | add _ hi' hop' fs' hn' hlt' h' =>
      congr 1
      refine List.ext_getElem (by omega) fun k h1 h2 => ih k h1 (h' k h2)
    | mul _ _ hop' => rw [hop] at hop'; cases hop'
    | div _ _ hop' => rw [hop] at hop'; cases hop'
    | exp _ _ hop' => rw [hop] at hop'; cases hop'
  | mul i hi hop fs h0 hn hlt h ih =>
    intro h'
    cases h' with
    | mul _ hi' hop' fs' h0' hn' hlt' h' =>
      congr 1
      refine List.ext_getElem (by omega) fun k h1 h2 => ih k h1 (h' k h2)
    | add _ _ hop' => rw [hop] at hop'; cases hop'
    | div _ _ hop' => rw [hop] at hop'; cases hop'
    | exp _ _ hop' => rw [hop] at hop'; cases hop'
  | div i hi hop f g hg _ _ hf hgd ihf ihg =>
    intro h'
    cases h' with
    | div _ hi' hop' f' g' hg' _ _ hf' hgd' => rw [ihf hf', ihg hgd']
    | add _ _ hop' => rw [hop] at hop'; cases hop'
    | mul _ _ hop' => rw [hop] at hop'; cases hop'
    | exp _ _ hop' => rw [hop] at hop'; cases hop'
  | exp i hi hop f hn _ hf ih =>
    intro h'
    cases h' with
    | exp _ hi' hop' f' hn' _ hf' => rw [ih hf']
    | add _ _ hop' => rw [hop] at hop'; cases hop'
    | mul _ _ hop' => rw [hop] at hop'; cases hop'
    | div _ _ hop' => rw [hop] at hop'; cases hop'

/-- Every stored result of a node in use is the expansion of its value, up to degree `d`. -/
def CacheOk (d : ℕ) (T : ℤ) (p : Pool) : Prop :=
  ∀ i < p.usedP, (p.poly i).dirty = false → ∃ f, Den T p (.poly i) f ∧ Agr d (p.poly i).cache f

/-- The two pools hold the same expressions; stored results may differ. -/
structure Same (p q : Pool) : Prop where
  op : ∀ i, (q.poly i).op = (p.poly i).op
  num : ∀ i, (q.poly i).num = (p.poly i).num
  child : ∀ i, (q.poly i).child = (p.poly i).child
  tn : q.tn = p.tn
  usedP : q.usedP = p.usedP
  usedT : q.usedT = p.usedT
  width : q.width = p.width
  degree : q.degree = p.degree

theorem Same.refl (p : Pool) : Same p p := ⟨fun _ => rfl, fun _ => rfl, fun _ => rfl, rfl, rfl, rfl, rfl, rfl⟩

theorem Same.symm {p q : Pool} (h : Same p q) : Same q p :=
  ⟨fun i => (h.op i).symm, fun i => (h.num i).symm, fun i => (h.child i).symm, h.tn.symm, h.usedP.symm, h.usedT.symm, h.width.symm, h.degree.symm⟩

theorem Same.trans {p q r : Pool} (h : Same p q) (h' : Same q r) : Same p r :=
  ⟨fun i => (h'.op i).trans (h.op i), fun i => (h'.num i).trans (h.num i), fun i => (h'.child i).trans (h.child i), h'.tn.trans h.tn,
    h'.usedP.trans h.usedP, h'.usedT.trans h.usedT, h'.width.trans h.width, h'.degree.trans h.degree⟩

theorem Same.den {T : ℤ} {p q : Pool} (h : Same p q) {r : Ref} {f : PowerSeries ℤ} (hd : Den T p r f) : Den T q r f := by
  induction hd with
  | tn i hi h0 =>
    rw [← h.tn]
    exact Den.tn i (by rw [h.usedT]; exact hi) (by rw [h.tn]; exact h0)
  | add i hi hop fs hn hlt hc ih =>
    exact Den.add i (by rw [h.usedP]; exact hi) (by rw [h.op]; exact hop) fs (by rw [h.num]; exact hn) (by rw [h.child]; exact hlt)
      (by rw [h.child]; exact ih)
  | mul i hi hop fs h0 hn hlt hc ih =>
    exact Den.mul i (by rw [h.usedP]; exact hi) (by rw [h.op]; exact hop) fs h0 (by rw [h.num]; exact hn) (by rw [h.child]; exact hlt)
      (by rw [h.child]; exact ih)
  | div i hi hop f g hg hlt0 hlt1 hf hgd ihf ihg =>
    exact Den.div i (by rw [h.usedP]; exact hi) (by rw [h.op]; exact hop) f g hg (by rw [h.child]; exact hlt0) (by rw [h.child]; exact hlt1)
      (by rw [h.child]; exact ihf) (by rw [h.child]; exact ihg)
  | exp i hi hop f hn hlt hf ih =>
    rw [← h.num]
    exact Den.exp i (by rw [h.usedP]; exact hi) (by rw [h.op]; exact hop) f (by rw [h.num]; exact hn) (by rw [h.child]; exact hlt)
      (by rw [h.child]; exact ih)

/-- `q` holds the same expressions as `p`, with right stored results. -/
structure Good (d : ℕ) (T : ℤ) (p q : Pool) : Prop where
  same : Same p q
  cache : CacheOk d T q

/-- Evaluating `c` in any pool with the expressions of `p` gives the coefficients of `f`. -/
def Evals (d : ℕ) (T : ℤ) (p : Pool) (ev : Ref → Pool → Except Fail (Arr × Pool)) (c : Ref) (f : PowerSeries ℤ) : Prop :=
  ∀ q, Good d T p q → ∃ r q', ev c q = .ok (r, q') ∧ Good d T p q' ∧ Agr d r f

section
variable {d : ℕ} {T : ℤ} {p : Pool} {ev : Ref → Pool → Except Fail (Arr × Pool)}

theorem addLoop_spec (cs : List Ref) (fs : List (PowerSeries ℤ)) (h : List.Forall₂ (Evals d T p ev) cs fs) :
    ∀ (r : Arr) (f : PowerSeries ℤ) (q : Pool), Agr d r f → Good d T p q →
      ∃ r' q', addLoop ev cs r q = .ok (r', q') ∧ Good d T p q' ∧ Agr d r' (f + fs.sum) := by
  induction h with
  | nil => intro r f q hr hq; exact ⟨r, q, rfl, hq, by simpa using hr⟩
  | @cons c g cs fs hc _ ih =>
    intro r f q hr hq
    obtain ⟨t, q1, h1, h2, h3⟩ := hc q hq
    obtain ⟨r', q', h4, h5, h6⟩ := ih (fun j => r j + t j) (f + g) q1 (fun k hk => by rw [map_add, ← hr k hk, ← h3 k hk]) h2
    refine ⟨r', q', ?_, h5, by rw [List.sum_cons, ← add_assoc]; exact h6⟩
    unfold addLoop
    rw [h1]
    exact h4

theorem mulLoop_spec (cs : List Ref) (fs : List (PowerSeries ℤ)) (h : List.Forall₂ (Evals d T p ev) cs fs) :
    ∀ (r : Arr) (f : PowerSeries ℤ) (q : Pool), Agr d r f → Good d T p q →
      ∃ r' q', mulLoop d ev cs r q = .ok (r', q') ∧ Good d T p q' ∧ Agr d r' (f * fs.prod) := by
  induction h with
  | nil => intro r f q hr hq; exact ⟨r, q, rfl, hq, by simpa using hr⟩
  | @cons c g cs fs hc _ ih =>
    intro r f q hr hq
    obtain ⟨t, q1, h1, h2, h3⟩ := hc q hq
    obtain ⟨r', q', h4, h5, h6⟩ := ih _ (f * g) q1 (agr_mul d t r f g hr h3) h2
    refine ⟨r', q', ?_, h5, by rw [List.prod_cons, ← mul_assoc]; exact h6⟩
    unfold mulLoop
    rw [h1]
    exact h4

end

/-- Storing the right result. -/
theorem store_good {d : ℕ} {T : ℤ} {p q : Pool} (h : Good d T p q) (i : ℕ) (r : Arr) (f : PowerSeries ℤ) (hf : Den T p (.poly i) f) (hr : Agr d r f) :
    Good d T p (store d i r q) := by
  have hs : Same q (store d i r q) := by
    refine ⟨fun j => ?_, fun j => ?_, fun j => ?_, rfl, rfl, rfl, rfl, rfl⟩ <;>
    · unfold store
      by_cases hj : j = i
      · subst hj; simp
      · simp [Function.update_of_ne hj]
  refine ⟨h.same.trans hs, ?_⟩
  intro j hj hdirty
  by_cases hji : j = i
  · subst hji
    refine ⟨f, hs.den (h.same.den hf), fun k hk => ?_⟩
    simp only [store, Function.update_self]
    rw [if_pos hk]
    exact hr k hk
  · have e : (store d i r q).poly j = q.poly j := Function.update_of_ne hji _ _
    rw [e] at hdirty ⊢
    obtain ⟨g, hg, ha⟩ := h.cache j hj hdirty
    exact ⟨g, hs.den hg, ha⟩

/-- The number of calls that can be nested. -/
def Ref.rank : Ref → ℕ
  | .poly i => i + 1
  | .tn _ => 0

theorem rank_of_below {i : ℕ} {r : Ref} (h : r.below i) : r.rank ≤ i := by
  cases r with
  | poly j => exact h
  | tn j => exact Nat.zero_le _

theorem forall₂_range (R : Ref → PowerSeries ℤ → Prop) (c : ℕ → Ref) (fs : List (PowerSeries ℤ)) (h : ∀ k (hk : k < fs.length), R (c k) fs[k]) :
    List.Forall₂ R ((List.range fs.length).map c) fs := by
  rw [List.forall₂_iff_get]
  refine ⟨by simp, fun k h1 h2 => ?_⟩
  simpa using h k h2

/-- **C73, expansion of expressions.** The expansion of a node is the expansion of its value, whatever has been expanded and stored before; the stored results
stay right. -/
theorem taylor_spec {d : ℕ} {T : ℤ} {p : Pool} (hdeg : d ≤ p.degree) {c : Ref} {f : PowerSeries ℤ} (h : Den T p c f) :
    ∀ fuel, c.rank < fuel → Evals d T p (taylor d T fuel) c f := by
  have clean : ∀ (i : ℕ) (f : PowerSeries ℤ) (fuel : ℕ) (q : Pool), i < p.usedP → Den T p (.poly i) f → Good d T p q →
      (∃ r q', expand d T (taylor d T fuel) (q.poly i) q = .ok (r, q') ∧ Good d T p q' ∧ Agr d r f) →
      ∃ r q', taylor d T (fuel + 1) (.poly i) q = .ok (r, q') ∧ Good d T p q' ∧ Agr d r f := by
    intro i f fuel q hi hf hq hex
    unfold taylor
    rw [if_neg (by rw [hq.same.degree]; omega)]
    by_cases hdirty : (q.poly i).dirty = false
    · rw [if_pos hdirty]
      obtain ⟨g, hg, ha⟩ := hq.cache i (by rw [hq.same.usedP]; exact hi) hdirty
      rw [hg.unique (hq.same.den hf)] at ha
      exact ⟨_, _, rfl, hq, ha⟩
    · rw [if_neg hdirty]
      obtain ⟨r, q', h1, h2, h3⟩ := hex
      rw [h1]
      exact ⟨r, store d i r q', rfl, store_good h2 i r f hf h3, h3⟩
  induction h with
  | tn i hi h0 =>
    intro fuel hfuel q hq
    obtain ⟨fuel, rfl⟩ := Nat.exists_eq_succ_of_ne_zero (show fuel ≠ 0 by omega)
    refine ⟨fun k => if (k : ℤ) = (p.tn i).exp then (p.tn i).coef else 0, q, ?_, hq, ?_⟩
    · unfold taylor
      rw [hq.same.tn, if_neg (by omega)]
    · intro k _
      rw [coeff_C_mul, coeff_X_pow]
      beta_reduce
      by_cases hk : (k : ℤ) = (p.tn i).exp
      · rw [if_pos hk, if_pos (by omega), mul_one]
      · rw [if_neg hk, if_neg (by omega), mul_zero]
  | add i hi hop fs hn hlt hc ih =>
    intro fuel hfuel q hq
    have hfuel : i + 1 < fuel := hfuel
    obtain ⟨fuel, rfl⟩ := Nat.exists_eq_succ_of_ne_zero (show fuel ≠ 0 by omega)
    refine clean i _ fuel q hi (.add i hi hop fs hn hlt hc) hq ?_
    unfold expand
    rw [hq.same.op, hop, hq.same.num, hn, hq.same.child]
    obtain ⟨r, q', h1, h2, h3⟩ := addLoop_spec (ev := taylor d T fuel) _ fs
      (forall₂_range _ (p.poly i).child fs fun k hk => ih k hk fuel (by have := rank_of_below (hlt k hk); omega))
      (fun _ => 0) 0 q (fun k _ => by simp) hq
    exact ⟨r, q', h1, h2, by rwa [zero_add] at h3⟩
  | mul i hi hop fs h0 hn hlt hc ih =>
    intro fuel hfuel q hq
    have hfuel : i + 1 < fuel := hfuel
    obtain ⟨fuel, rfl⟩ := Nat.exists_eq_succ_of_ne_zero (show fuel ≠ 0 by omega)
    refine clean i _ fuel q hi (.mul i hi hop fs h0 hn hlt hc) hq ?_
    unfold expand
    rw [hq.same.op, hop, hq.same.num, hn, hq.same.child]
    cases fs with
    | nil => simp at h0
    | cons g gs =>
      have hall : ∀ k (hk : k < (g :: gs).length), Evals d T p (taylor d T fuel) ((p.poly i).child k) (g :: gs)[k] :=
        fun k hk => ih k hk fuel (by have := rank_of_below (hlt k hk); omega)
      obtain ⟨r, q1, h1, h2, h3⟩ := hall 0 h0 q hq
      have hrest : List.Forall₂ (Evals d T p (taylor d T fuel)) ((List.range' 1 ((g :: gs).length - 1)).map (p.poly i).child) gs := by
        rw [List.forall₂_iff_get]
        refine ⟨by simp, fun k h1 h2 => ?_⟩
        have := hall (k + 1) (by simpa using h2)
        simpa [add_comm] using this
      obtain ⟨r', q', h4, h5, h6⟩ := mulLoop_spec _ gs hrest r g q1 h3 h2
      refine ⟨r', q', ?_, h5, by rw [List.prod_cons]; exact h6⟩
      dsimp only
      rw [h1]
      exact h4
  | div i hi hop f g hg hlt0 hlt1 hf hgd ihf ihg =>
    intro fuel hfuel q hq
    have hfuel : i + 1 < fuel := hfuel
    obtain ⟨fuel, rfl⟩ := Nat.exists_eq_succ_of_ne_zero (show fuel ≠ 0 by omega)
    refine clean i _ fuel q hi (.div i hi hop f g hg hlt0 hlt1 hf hgd) hq ?_
    unfold expand
    rw [hq.same.op, hop, hq.same.child]
    obtain ⟨a, q1, h1, h2, h3⟩ := ihf fuel (by have := rank_of_below hlt0; omega) q hq
    obtain ⟨b, q2, h4, h5, h6⟩ := ihg fuel (by have := rank_of_below hlt1; omega) q1 h2
    have hb0 : b 0 ≠ 0 := by
      rw [h6 0 (Nat.zero_le _), coeff_zero_eq_constantCoeff_apply]
      exact hg
    refine ⟨_, q2, ?_, h5, agr_div d T a b f g h3 h6 hg⟩
    dsimp only
    rw [h1]
    dsimp only
    rw [h4]
    dsimp only
    rw [if_neg hb0]
  | exp i hi hop f hn hlt hf ih =>
    intro fuel hfuel q hq
    have hfuel : i + 1 < fuel := hfuel
    obtain ⟨fuel, rfl⟩ := Nat.exists_eq_succ_of_ne_zero (show fuel ≠ 0 by omega)
    refine clean i _ fuel q hi (.exp i hi hop f hn hlt hf) hq ?_
    unfold expand
    rw [hq.same.op, hop, hq.same.child, hq.same.num]
    obtain ⟨t, q1, h1, h2, h3⟩ := ih fuel (by have := rank_of_below hlt; omega) q hq
    refine ⟨_, q1, ?_, h2, agr_pow d _ hn t f h3⟩
    dsimp only
    rw [if_neg hn, h1]

/-! ### Building expressions -/

/-- `q` was made from `p` by adding nodes: what had a value still has it, and the stored results are right if they were. -/
structure Ext (d : ℕ) (T : ℤ) (p q : Pool) : Prop where
  den : ∀ {c f}, Den T p c f → Den T q c f
  cache : CacheOk d T p → CacheOk d T q
  width : q.width = p.width
  degree : q.degree = p.degree

theorem Ext.refl (d : ℕ) (T : ℤ) (p : Pool) : Ext d T p p := ⟨id, id, rfl, rfl⟩

theorem Ext.trans {d : ℕ} {T : ℤ} {p q r : Pool} (h : Ext d T p q) (h' : Ext d T q r) : Ext d T p r :=
  ⟨fun hd => h'.den (h.den hd), fun hc => h'.cache (h.cache hc), h'.width.trans h.width, h'.degree.trans h.degree⟩

theorem den_mono {T : ℤ} {p q : Pool} (hT : ∀ i < p.usedT, q.tn i = p.tn i) (hP : ∀ i < p.usedP, q.poly i = p.poly i) (hu : p.usedT ≤ q.usedT)
    (hv : p.usedP ≤ q.usedP) {c : Ref} {f : PowerSeries ℤ} (h : Den T p c f) : Den T q c f := by
  induction h with
  | tn i hi h0 => rw [← hT i hi]; exact .tn i (by omega) (by rw [hT i hi]; exact h0)
  | add i hi hop fs hn hlt _ ih =>
    exact .add i (by omega) (by rw [hP i hi]; exact hop) fs (by rw [hP i hi]; exact hn) (by rw [hP i hi]; exact hlt) (by rw [hP i hi]; exact ih)
  | mul i hi hop fs h0 hn hlt _ ih =>
    exact .mul i (by omega) (by rw [hP i hi]; exact hop) fs h0 (by rw [hP i hi]; exact hn) (by rw [hP i hi]; exact hlt) (by rw [hP i hi]; exact ih)
  | div i hi hop f g hg hlt0 hlt1 _ _ ihf ihg =>
    exact .div i (by omega) (by rw [hP i hi]; exact hop) f g hg (by rw [hP i hi]; exact hlt0) (by rw [hP i hi]; exact hlt1) (by rw [hP i hi]; exact ihf)
      (by rw [hP i hi]; exact ihg)
  | exp i hi hop f hn hlt _ ih =>
    rw [← hP i hi]
    exact .exp i (by omega) (by rw [hP i hi]; exact hop) f (by rw [hP i hi]; exact hn) (by rw [hP i hi]; exact hlt) (by rw [hP i hi]; exact ih)

/-- A node with a value is in use. -/
theorem Den.used {T : ℤ} {p : Pool} {c : Ref} {f : PowerSeries ℤ} (h : Den T p c f) : c.below p.usedP := by
  cases h <;> first | exact trivial | assumption

theorem getT_ext (d : ℕ) (T c x : ℤ) (p : Pool) : Ext d T p (getT c x p).2 := by
  have hd : ∀ {c' : Ref} {f : PowerSeries ℤ}, Den T p c' f → Den T (getT c x p).2 c' f := fun h =>
    den_mono (p := p) (q := (getT c x p).2) (fun i hi => Function.update_of_ne (by omega) _ _) (fun _ _ => rfl) (Nat.le_succ _) le_rfl h
  refine ⟨hd, fun hc i hi hdirty => ?_, rfl, rfl⟩
  obtain ⟨f, h1, h2⟩ := hc i hi hdirty
  exact ⟨f, hd h1, h2⟩

theorem getT_den (T c x : ℤ) (hx : 0 ≤ x) (p : Pool) : Den T (getT c x p).2 (getT c x p).1 (C c * X ^ x.toNat) := by
  have e : (getT c x p).2.tn p.usedT = ⟨c, x⟩ := Function.update_self _ _ _
  have := Den.tn (T := T) (p := (getT c x p).2) p.usedT (Nat.lt_succ_self _) (by rw [e]; exact hx)
  rw [e] at this
  exact this

/-- The node made by `mkP`. -/
theorem mkP_ok (op : Op) (num : ℕ) (cs : List Ref) (p : Pool) (hw : cs.length ≤ p.width) : ∃ q, mkP op num cs p = .ok (.poly p.usedP, q) ∧
    (∀ d T, Ext d T p q) ∧ q.usedP = p.usedP + 1 ∧ (q.poly p.usedP).op = op ∧ (q.poly p.usedP).num = num ∧
    ∀ k (hk : k < cs.length), (q.poly p.usedP).child k = cs[k] := by
  let nd : PNode := { (getP p).2.poly (getP p).1 with op := op, num := num, child := fun k => cs.getD k (((getP p).2.poly (getP p).1).child k) }
  let q : Pool := { (getP p).2 with poly := Function.update (getP p).2.poly (getP p).1 nd }
  have hne : ∀ i < p.usedP, q.poly i = p.poly i := by
    intro i hi
    show Function.update (Function.update p.poly p.usedP _) p.usedP nd i = _
    rw [Function.update_of_ne (by omega), Function.update_of_ne (by omega)]
  have hself : q.poly p.usedP = nd := Function.update_self _ _ _
  have hd : ∀ {T : ℤ} {c' : Ref} {f : PowerSeries ℤ}, Den T p c' f → Den T q c' f := fun h =>
    den_mono (p := p) (q := q) (fun _ _ => rfl) hne le_rfl (Nat.le_succ _) h
  refine ⟨q, ?_, fun d T => ⟨hd, fun hc i hi hdirty => ?_, rfl, rfl⟩, rfl, by rw [hself], by rw [hself], fun k hk => ?_⟩
  · unfold mkP
    rw [if_neg (by omega)]
    rfl
  · by_cases hi' : i = p.usedP
    · subst hi'
      rw [hself] at hdirty
      have : ((getP p).2.poly (getP p).1).dirty = false := hdirty
      rw [show (getP p).2.poly (getP p).1 = { p.poly p.usedP with dirty := true } from Function.update_self _ _ _] at this
      cases this
    · have hlt : i < p.usedP := by
        have : i < p.usedP + 1 := hi
        omega
      rw [hne i hlt] at hdirty ⊢
      obtain ⟨f, h1, h2⟩ := hc i hlt hdirty
      exact ⟨f, hd h1, h2⟩
  · rw [hself]
    show cs.getD k _ = _
    rw [List.getD_eq_getElem _ _ hk]

/-- The result of a step that builds a node: it succeeds, adds nodes only, and the node has the value `f`. -/
def Built (d : ℕ) (T : ℤ) (p : Pool) (res : Except Fail (Ref × Pool)) (f : PowerSeries ℤ) : Prop :=
  ∃ c q, res = .ok (c, q) ∧ Ext d T p q ∧ Den T q c f

section
variable {d : ℕ} {T : ℤ} {p : Pool}

theorem mkP_add (num : ℕ) (cs : List Ref) (fs : List (PowerSeries ℤ)) (h : List.Forall₂ (Den T p) cs fs) (hn : num = fs.length) (hw : fs.length ≤ p.width) :
    Built d T p (mkP .add num cs p) fs.sum := by
  have hl := h.length_eq
  obtain ⟨q, h1, h2, h3, h4, h5, h6⟩ := mkP_ok .add num cs p (by omega)
  have hg := (List.forall₂_iff_get.1 h).2
  refine ⟨_, q, h1, h2 d T, .add _ (by omega) h4 fs (by omega) (fun k hk => ?_) fun k hk => ?_⟩
  · rw [h6 k (by omega)]
    exact (hg k (by omega) hk).used
  · rw [h6 k (by omega)]
    exact (h2 d T).den (hg k (by omega) hk)

theorem mkP_mul (num : ℕ) (cs : List Ref) (fs : List (PowerSeries ℤ)) (h : List.Forall₂ (Den T p) cs fs) (h0 : 0 < fs.length) (hn : num = fs.length)
    (hw : fs.length ≤ p.width) : Built d T p (mkP .mul num cs p) fs.prod := by
  have hl := h.length_eq
  obtain ⟨q, h1, h2, h3, h4, h5, h6⟩ := mkP_ok .mul num cs p (by omega)
  have hg := (List.forall₂_iff_get.1 h).2
  refine ⟨_, q, h1, h2 d T, .mul _ (by omega) h4 fs h0 (by omega) (fun k hk => ?_) fun k hk => ?_⟩
  · rw [h6 k (by omega)]
    exact (hg k (by omega) hk).used
  · rw [h6 k (by omega)]
    exact (h2 d T).den (hg k (by omega) hk)

theorem mkP_div (a b : Ref) (f g : PowerSeries ℤ) (ha : Den T p a f) (hb : Den T p b g) (hg : constantCoeff g ≠ 0) (hw : 2 ≤ p.width) :
    Built d T p (mkP .div 2 [a, b] p) (divSeries T f g) := by
  obtain ⟨q, h1, h2, h3, h4, h5, h6⟩ := mkP_ok .div 2 [a, b] p hw
  have e0 := h6 0 (by simp)
  have e1 := h6 1 (by simp)
  refine ⟨_, q, h1, h2 d T, .div _ (by omega) h4 f g hg ?_ ?_ ?_ ?_⟩
  · rw [e0]; exact ha.used
  · rw [e1]; exact hb.used
  · rw [e0]; exact (h2 d T).den ha
  · rw [e1]; exact (h2 d T).den hb

theorem mkP_exp (a : Ref) (e : ℕ) (he : e ≠ 0) (f : PowerSeries ℤ) (ha : Den T p a f) (hw : 1 ≤ p.width) : Built d T p (powerNode a e p) (f ^ e) := by
  obtain ⟨q, h1, h2, h3, h4, h5, h6⟩ := mkP_ok .exp e [a] p hw
  have e0 := h6 0 (by simp)
  refine ⟨_, q, h1, h2 d T, ?_⟩
  have := Den.exp (T := T) (p := q) p.usedP (by omega) h4 f (by rw [h5]; exact he) (by rw [e0]; exact ha.used) (by rw [e0]; exact (h2 d T).den ha)
  rw [h5] at this
  exact this

end

end Verif.Series

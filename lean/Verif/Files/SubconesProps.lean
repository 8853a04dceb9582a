import Verif.Files.Subcones
import Mathlib.Data.List.GetD

/-!
Properties C36 (subcones file) and C61 (interrupted writer).
-/

namespace Verif.Files

open Latte.Decimal

/-! ### Specification -/

/-- the vectors written in a history -/
def written : List WOp → List (List Bool)
  | [] => []
  | .write v :: os => v :: written os
  | .update :: os => written os

/-- How many vectors had been written when the number of vectors was updated last; `none` if it never was. -/
def published : ℕ → List WOp → Option ℕ
  | _, [] => none
  | n, .write _ :: os => published (n + 1) os
  | n, .update :: os => some ((published n os).getD n)

/-- the rays of the master cone that are selected by `ind`, with their numbers, counted from `k`, in increasing order -/
def selected (k : ℕ) : List (List ℤ) → List Bool → List Ray
  | v :: vs, b :: bs => (if b then [⟨v, (k : ℤ)⟩] else []) ++ selected (k + 1) vs bs
  | _, _ => []

/-! ### The text -/

theorem length_digits_le (k : ℕ) : ∀ n, n < 10 ^ k → (Nat.digits 10 n).length ≤ k := by
  intro n h
  exact (Nat.digits_length_le_iff (by norm_num) n).2 h

theorem printInt_length_nat (n : ℕ) (h : n < 10 ^ 16) : (printInt (n : ℤ)).length ≤ 16 := by
  have : printInt (n : ℤ) = printNat n := by simp [printInt]
  rw [this, printNat]
  split
  · simp
  · simpa using length_digits_le 16 n h

theorem padRight_length (w : ℕ) (s : List Char) (h : s.length ≤ w) : (padRight w s).length = w := by
  simp [padRight]; omega

theorem overwrite_header (a : List Char) (b rest : List Char) (h : a.length = b.length) :
    overwrite a (b ++ rest) = a ++ rest := by
  unfold overwrite
  rw [h, List.drop_left]

/-- the number in the first line -/
def headNumber (o : Option ℕ) : ℤ := match o with | none => -1 | some n => (n : ℤ)

theorem run_content (ops : List WOp) : ∀ (w w' : Writer) (h : ℤ) (rows : List (List Bool)),
    w.run ops = some w' → w.content = headerLine h w.dimension ++ rows.flatMap vectorLine →
    w.numVectors = rows.length → (printInt h).length ≤ 16 → rows.length + (written ops).length < 10 ^ 16 →
    (∀ v ∈ rows, v.length = w.dimension) →
    w'.dimension = w.dimension ∧ w'.numVectors = rows.length + (written ops).length ∧
    w'.content = headerLine (match published rows.length ops with | none => h | some n => (n : ℤ)) w.dimension ++
      (rows ++ written ops).flatMap vectorLine ∧ (∀ v ∈ written ops, v.length = w.dimension) := by
  induction ops with
  | nil =>
    intro w w' h rows hr hc hn hl hlt hv
    simp only [Writer.run, Option.some.injEq] at hr
    subst hr
    simp [written, published, hc, hn]
  | cons o os ih =>
    intro w w' h rows hr hc hn hl hlt hv
    simp only [Writer.run, Option.bind_eq_some_iff] at hr
    obtain ⟨w1, h1, h2⟩ := hr
    cases o with
    | write v =>
      simp only [Writer.step, Writer.writeVector] at h1
      split at h1
      · rename_i hd
        simp only [Option.some.injEq] at h1
        subst h1
        simp only [written, List.length_cons] at hlt ⊢
        have := ih _ w' h (rows ++ [v]) h2 (by simp [hc]) (by simp [hn]) hl (by simp; omega) (by
          intro x hx
          rcases List.mem_append.1 hx with hx | hx
          · exact hv x hx
          · simp only [List.mem_singleton] at hx; rw [hx]; exact hd.symm)
        simp only [List.length_append, List.length_singleton] at this
        refine ⟨this.1, by rw [this.2.1]; omega, ?_, ?_⟩
        · rw [this.2.2.1, published]
          simp
        · intro x hx
          rcases List.mem_cons.1 hx with rfl | hx
          · exact hd.symm
          · exact this.2.2.2 x hx
      · cases h1
    | update =>
      simp only [Writer.step, Option.some.injEq] at h1
      subst h1
      simp only [written] at hlt ⊢
      have hlen : (printInt (rows.length : ℤ)).length ≤ 16 := printInt_length_nat _ (by omega)
      have := ih w.update w' (rows.length : ℤ) rows h2 (by
        simp only [Writer.update]
        rw [hc, hn]
        unfold headerLine
        rw [List.append_assoc, overwrite_header _ _ _ (by rw [padRight_length _ _ hlen, padRight_length _ _ hl])]
        simp) (by simp [Writer.update, hn]) hlen hlt (by simpa [Writer.update] using hv)
      refine ⟨this.1, this.2.1, ?_, this.2.2.2⟩
      rw [this.2.2.1, published]
      cases published rows.length os with
      | none => rfl
      | some n => rfl

/-- the contents of the file after a history -/
theorem new_run_content (dim : ℕ) (ops : List WOp) (w : Writer) (h : (Writer.new dim).run ops = some w)
    (hn : (written ops).length < 10 ^ 16) :
    w.content = headerLine (headNumber (published 0 ops)) dim ++ (written ops).flatMap vectorLine ∧
      (∀ v ∈ written ops, v.length = dim) ∧ w.numVectors = (written ops).length ∧ w.dimension = dim := by
  have := run_content ops (Writer.new dim) w (-1) [] h (by simp [Writer.new]) (by simp [Writer.new])
    (by decide +kernel) (by simpa using hn) (by simp)
  simp only [List.nil_append, List.length_nil, Nat.zero_add] at this
  refine ⟨?_, this.2.2.2, this.2.1, this.1⟩
  rw [this.2.2.1]
  cases published 0 ops <;> rfl

theorem published_le (ops : List WOp) : ∀ n k, published n ops = some k → k ≤ n + (written ops).length := by
  induction ops with
  | nil => intro n k h; simp [published] at h
  | cons o os ih =>
    intro n k h
    cases o with
    | write v =>
      have := ih (n + 1) k (by simpa [published] using h)
      simp only [written, List.length_cons]; omega
    | update =>
      simp only [published, Option.some.injEq] at h
      simp only [written]
      cases hp : published n os with
      | none => rw [hp] at h; simp at h; omega
      | some j => rw [hp] at h; simp at h; have := ih n j hp; omega

/-! ### Reading back -/

theorem collectRays_eq (vs : List (List ℤ)) : ∀ (k : ℕ) (bs : List Bool) (acc : List Ray),
    collectRays k vs bs acc = (selected k vs bs).reverse ++ acc := by
  induction vs with
  | nil => intro k bs acc; simp [collectRays, selected]
  | cons v vs ih =>
    intro k bs acc
    cases bs with
    | nil => simp [collectRays, selected]
    | cons b bs =>
      rw [collectRays, ih, selected]
      cases b <;> simp

theorem readBits_write (l : List Bool) (rest : List Char) : ∀ ws, AllSpace ws → ∃ ws', AllSpace ws' ∧
    readBits l.length (ws ++ (l.flatMap (fun b => bit b ++ [' ']) ++ rest)) = some (l, ws' ++ rest) := by
  induction l with
  | nil => intro ws h; exact ⟨ws, h, by simp [readBits]⟩
  | cons b l ih =>
    intro ws h
    obtain ⟨ws', h1, h2⟩ := ih [' '] (by intro c hc; simp at hc; subst hc; decide)
    refine ⟨ws', h1, ?_⟩
    have hb : bit b = printInt (if b then 1 else 0) := by cases b <;> decide +kernel
    have e : ws ++ ((b :: l).flatMap (fun b => bit b ++ [' ']) ++ rest) =
        ws ++ (printInt (if b then 1 else 0) ++ ([' '] ++ (l.flatMap (fun b => bit b ++ [' ']) ++ rest))) := by
      simp [List.flatMap_cons, hb]
    rw [e, List.length_cons, readBits, readInt_print (if b then 1 else 0) (by cases b <;> simp [IsInt]) ws _ h (by
      intro c hc
      simp at hc; subst hc; decide)]
    simp only [Option.bind_some, h2, Option.map_some]
    cases b <;> simp

/-- the cones read from lines `rows`, numbered from `k` -/
def conesOf (master : List (List ℤ)) : ℕ → List (List Bool) → List SCone
  | _, [] => []
  | k, v :: vs => ⟨(selected 0 master v).reverse, (k : ℤ)⟩ :: conesOf master (k + 1) vs

theorem readCones_write (master : List (List ℤ)) (n : ℕ) : ∀ (k : ℕ) (rows : List (List Bool)) (rest ws : List Char),
    (∀ v ∈ rows, v.length = master.length) → n ≤ rows.length → AllSpace ws →
    readCones master k n (ws ++ (rows.flatMap vectorLine ++ rest)) = some (conesOf master k (rows.take n)) := by
  induction n with
  | zero => intro k rows rest ws _ _ _; simp [readCones, conesOf]
  | succ n ih =>
    intro k rows rest ws hr hn hws
    cases rows with
    | nil => simp at hn
    | cons v rows =>
      obtain ⟨ws', h1, h2⟩ := readBits_write v (['\n'] ++ (rows.flatMap vectorLine ++ rest)) ws hws
      have e : ws ++ ((v :: rows).flatMap vectorLine ++ rest) =
          ws ++ (v.flatMap (fun b => bit b ++ [' ']) ++ (['\n'] ++ (rows.flatMap vectorLine ++ rest))) := by
        simp [vectorLine]
      rw [e, readCones, ← hr v (List.mem_cons_self ..), h2]
      simp only [Option.bind_some, checkGood]
      rw [if_neg (by simp)]
      simp only [Option.bind_some]
      have := ih (k + 1) rows rest (ws' ++ ['\n']) (fun x hx => hr x (List.mem_cons_of_mem _ hx)) (by simpa using hn)
        (allSpace_append h1 (by intro c hc; simp at hc; subst hc; decide))
      rw [← List.append_assoc ws', this]
      simp [coneFromIndicator, collectRays_eq, conesOf]

/-- **C61** What is read from the file of a writer in any state.  Take any history of operations on a new writer (the
process may have stopped anywhere after it, leaving moreover any beginning `t` of a further line).  The reader accepts
the file without complaint and delivers exactly the cones that had been written when the number of vectors was updated
last; none if this never happened. -/
theorem c61_read_after_history (master : List (List ℤ)) (ops : List WOp) (w : Writer) (t : List Char)
    (hrun : (Writer.new master.length).run ops = some w)
    (hn : (written ops).length < 2 ^ 31) (hd : master.length < 2 ^ 31) :
    readSubcones master (w.content ++ t) =
      some (conesOf master 0 ((written ops).take ((published 0 ops).getD 0))) := by
  obtain ⟨hc, hv, -, -⟩ := new_run_content master.length ops w hrun (by omega)
  set num := headNumber (published 0 ops) with hnum
  have hint : IsInt num := by
    rw [hnum]
    cases hp : published 0 ops with
    | none => simp [headNumber, IsInt]
    | some k =>
      have := published_le ops 0 k hp
      simp only [headNumber, IsInt]
      omega
  have e : w.content ++ t = printInt num ++ ((List.replicate (16 - (printInt num).length) ' ' ++ [' ']) ++
      (printInt (master.length : ℤ) ++ (['\n'] ++ ((written ops).flatMap vectorLine ++ t)))) := by
    rw [hc]; simp [headerLine, padRight]
  have hsp : AllSpace (List.replicate (16 - (printInt num).length) ' ' ++ [' ']) := by
    intro c hc
    simp only [List.mem_append, List.mem_replicate, List.mem_singleton] at hc
    rcases hc with ⟨-, rfl⟩ | rfl <;> decide
  have r1 := readInt_print num hint [] ((List.replicate (16 - (printInt num).length) ' ' ++ [' ']) ++
      (printInt (master.length : ℤ) ++ (['\n'] ++ ((written ops).flatMap vectorLine ++ t)))) (by simp) (by
    intro c hc
    have hsc : isSpace c = true := by
      cases h : (List.replicate (16 - (printInt num).length) ' ' ++ [' ']) with
      | nil => simp at h
      | cons a l =>
        rw [h] at hc
        simp only [List.cons_append, List.head?_cons, Option.some.injEq] at hc
        subst hc
        exact hsp a (by rw [h]; exact List.mem_cons_self ..)
    by_contra hcd
    simp only [Bool.not_eq_false] at hcd
    rw [isDigit_not_space hcd] at hsc
    cases hsc)
  have r2 := readInt_print (master.length : ℤ) (by simp only [IsInt]; omega)
    (List.replicate (16 - (printInt num).length) ' ' ++ [' ']) (['\n'] ++ ((written ops).flatMap vectorLine ++ t)) hsp
    (by intro c hc; simp at hc; subst hc; decide)
  rw [List.nil_append] at r1
  unfold readSubcones
  rw [e, r1]
  simp only [Option.bind_some, r2, checkGood]
  rw [if_neg (by simp)]
  simp only [Option.bind_some]
  rw [if_neg (by simp)]
  have hnn : num.toNat = (published 0 ops).getD 0 := by
    rw [hnum]
    cases published 0 ops <;> simp [headNumber]
  rw [readCones_write master _ 0 (written ops) t ['\n'] hv (by
    rw [hnn]
    cases hp : published 0 ops with
    | none => simp
    | some k => have := published_le ops 0 k hp; simpa using this) (by intro c hc; simp at hc; subst hc; decide), hnn]

/-- **C61, violated.** If the process is stopped (or exits because of a foreign ray) before the number of vectors was
ever updated, the reader takes the file for a complete file without cones, whatever has been written: all cones are
lost silently. -/
theorem c61_interrupted_reads_empty (master : List (List ℤ)) (vs : List (List Bool)) (t : List Char)
    (hv : ∀ v ∈ vs, v.length = master.length) (hn : vs.length < 2 ^ 31) (hd : master.length < 2 ^ 31) :
    ∃ w, (Writer.new master.length).run (vs.map WOp.write) = some w ∧
      readSubcones master (w.content ++ t) = some [] := by
  have hw : written (vs.map WOp.write) = vs := by
    induction vs with
    | nil => rfl
    | cons v vs ih => simp [written, ih (fun x hx => hv x (List.mem_cons_of_mem _ hx)) (by simp at hn; omega)]
  have hp : ∀ n, published n (vs.map WOp.write) = none := by
    clear hw hn hv
    induction vs with
    | nil => intro n; rfl
    | cons v vs ih => intro n; simp [published, ih]
  have hrun : ∀ w : Writer, w.dimension = master.length → ∃ w', w.run (vs.map WOp.write) = some w' := by
    clear hw hn hp
    induction vs with
    | nil => intro w _; exact ⟨w, rfl⟩
    | cons v vs ih =>
      intro w hw
      simp only [List.map_cons, Writer.run, Writer.step, Writer.writeVector]
      rw [if_pos (by rw [hw, hv v (List.mem_cons_self ..)])]
      exact ih (fun x hx => hv x (List.mem_cons_of_mem _ hx)) _ hw
  obtain ⟨w, h⟩ := hrun (Writer.new master.length) rfl
  refine ⟨w, h, ?_⟩
  rw [c61_read_after_history master _ w t h (by rw [hw]; exact hn) hd, hp]
  simp [conesOf]

/-- **C61** After an update nothing is lost: if the last operation of a history is an update, every vector is read. -/
theorem c61_read_after_update (master : List (List ℤ)) (ops : List WOp) (w : Writer) (t : List Char)
    (hrun : (Writer.new master.length).run (ops ++ [.update]) = some w)
    (hn : (written ops).length < 2 ^ 31) (hd : master.length < 2 ^ 31) :
    readSubcones master (w.content ++ t) = some (conesOf master 0 (written ops)) := by
  have hw : ∀ ops : List WOp, written (ops ++ [.update]) = written ops := by
    intro ops
    induction ops with
    | nil => rfl
    | cons o os ih => cases o <;> simp [written, ih]
  have hp : ∀ (ops : List WOp) n, published n (ops ++ [.update]) = some (n + (written ops).length) := by
    intro ops
    induction ops with
    | nil => intro n; rfl
    | cons o os ih =>
      intro n
      cases o with
      | write v => simp [published, written, ih]; omega
      | update => simp [published, written, ih]
  rw [c61_read_after_history master _ w t hrun (by rw [hw]; exact hn) hd, hw, hp]
  simp

/-! ### The printing consumer -/

theorem mem_selected (vs : List (List ℤ)) : ∀ (k : ℕ) (bs : List Bool) (r : Ray), r ∈ selected k vs bs ↔
    ∃ j, j < vs.length ∧ bs.getD j false = true ∧ r = ⟨vs.getD j [], ((k + j : ℕ) : ℤ)⟩ := by
  induction vs with
  | nil => intro k bs r; simp [selected]
  | cons v vs ih =>
    intro k bs r
    cases bs with
    | nil => simp [selected]
    | cons b bs =>
      rw [selected, List.mem_append, ih]
      constructor
      · rintro (h | ⟨j, h1, h2, rfl⟩)
        · cases b with
          | false => simp at h
          | true => simp at h; exact ⟨0, by simp, by simp, by simp [h]⟩
        · exact ⟨j + 1, by simpa using h1, by simpa using h2, by simp; omega⟩
      · rintro ⟨j, h1, h2, rfl⟩
        cases j with
        | zero => left; simp only [List.getD_cons_zero] at h2; simp [h2]
        | succ j =>
          right
          refine ⟨j, by simpa using h1, by simpa using h2, ?_⟩
          simp; omega

theorem selected_pairwise (vs : List (List ℤ)) : ∀ (k : ℕ) (bs : List Bool),
    (selected k vs bs).Pairwise fun a b => a.hint < b.hint := by
  induction vs with
  | nil => intro k bs; simp [selected]
  | cons v vs ih =>
    intro k bs
    cases bs with
    | nil => simp [selected]
    | cons b bs =>
      rw [selected, List.pairwise_append]
      refine ⟨by cases b <;> simp, ih _ _, ?_⟩
      intro a ha r hr
      obtain ⟨j, -, -, rfl⟩ := (mem_selected _ _ _ _).1 hr
      cases b with
      | false => simp at ha
      | true => simp at ha; subst ha; simp; omega

theorem rayIndex_nodup (master : List (List ℤ)) (hm : master.Nodup) (r : Ray) (hr : r.vec ∈ master) :
    rayIndex master r = some (master.idxOf r.vec) := by
  unfold rayIndex
  split
  · rename_i h
    obtain ⟨h1, h2, h3⟩ := h
    have hlt : r.hint.toNat < master.length := by omega
    rw [List.getD_eq_getElem _ _ hlt] at h3
    rw [h3, hm.idxOf_getElem]
  · simp [indexMap, hr]

theorem indicator_nodup (master : List (List ℤ)) (hm : master.Nodup) (rs : List Ray) (hrs : ∀ r ∈ rs, r.vec ∈ master) :
    ∀ ind : List Bool, ind.length = master.length → ∃ ind', indicator master rs ind = .ok ind' ∧
      ind'.length = master.length ∧
      ∀ i, ind'.getD i false = true ↔ (ind.getD i false = true ∨ ∃ r ∈ rs, master.idxOf r.vec = i) := by
  induction rs with
  | nil => intro ind h; exact ⟨ind, rfl, h, by simp⟩
  | cons r rs ih =>
    intro ind h
    have hr := hrs r (List.mem_cons_self ..)
    have hi : master.idxOf r.vec < ind.length := by rw [h]; exact List.idxOf_lt_length_iff.2 hr
    obtain ⟨ind', h1, h2, h3⟩ := ih (fun x hx => hrs x (List.mem_cons_of_mem _ hx)) (ind.set (master.idxOf r.vec) true)
      (by simpa using h)
    refine ⟨ind', ?_, h2, ?_⟩
    · rw [indicator, rayIndex_nodup master hm r hr]
      simp only [hi, if_true, h1]
    · intro i
      rw [h3]
      have : (ind.set (master.idxOf r.vec) true).getD i false = true ↔
          (ind.getD i false = true ∨ master.idxOf r.vec = i) := by
        simp only [List.getD_eq_getElem?_getD, List.getElem?_set]
        by_cases hii : master.idxOf r.vec = i
        · subst hii; simp [hi]
        · simp [hii]
      rw [this]
      simp only [List.mem_cons, exists_eq_or_imp]
      tauto

theorem indexMapSize_nodup (master : List (List ℤ)) (hm : master.Nodup) : indexMapSize master = master.length := by
  rw [indexMapSize, hm.dedup]

theorem consumeCones_nodup (master : List (List ℤ)) (hm : master.Nodup) (cs : List SCone)
    (hcs : ∀ c ∈ cs, ∀ r ∈ c.rays, r.vec ∈ master) : ∀ w : Writer, w.dimension = master.length →
    ∃ (w' : Writer) (inds : List (List Bool)), consumeCones master w cs = .ok w' ∧
      w.run (inds.map WOp.write) = some w' ∧
      List.Forall₂ (fun (c : SCone) (ind : List Bool) => ind.length = master.length ∧
        ∀ i, ind.getD i false = true ↔ ∃ r ∈ c.rays, master.idxOf r.vec = i) cs inds := by
  induction cs with
  | nil => intro w _; exact ⟨w, [], rfl, rfl, .nil⟩
  | cons c cs ih =>
    intro w hw
    obtain ⟨ind, h1, h2, h3⟩ := indicator_nodup master hm c.rays (hcs c (List.mem_cons_self ..))
      (List.replicate (indexMapSize master) false) (by simp [indexMapSize_nodup master hm])
    obtain ⟨w', inds, h4, h5, h6⟩ := ih (fun x hx => hcs x (List.mem_cons_of_mem _ hx))
      { w with numVectors := w.numVectors + 1, content := w.content ++ vectorLine ind } hw
    have hwv : w.writeVector ind =
        some { w with numVectors := w.numVectors + 1, content := w.content ++ vectorLine ind } := by
      rw [Writer.writeVector, if_pos (by rw [hw, h2])]
    refine ⟨w', ind :: inds, ?_, ?_, .cons ⟨h2, ?_⟩ h6⟩
    · rw [consumeCones, consumeCone, h1]
      simp only [hwv, h4]
    · simp only [List.map_cons, Writer.run, Writer.step, hwv, Option.bind_some, h5]
    · intro i
      rw [h3]
      simp [List.getD_eq_getElem?_getD, List.getElem?_replicate]
      intro h
      split at h <;> simp at h

theorem written_map (vs : List (List Bool)) : written (vs.map WOp.write) = vs := by
  induction vs with
  | nil => rfl
  | cons v vs ih => simp [written, ih]

theorem conesOf_forall₂ (master : List (List ℤ)) (inds : List (List Bool)) : ∀ k,
    (conesOf master k inds).length = inds.length ∧ ∀ i (h : i < inds.length),
      (conesOf master k inds)[i]? = some ⟨(selected 0 master inds[i]).reverse, ((k + i : ℕ) : ℤ)⟩ := by
  induction inds with
  | nil => intro k; simp [conesOf]
  | cons v vs ih =>
    intro k
    refine ⟨by simp [conesOf, (ih (k + 1)).1], ?_⟩
    intro i h
    cases i with
    | zero => simp [conesOf]
    | succ i =>
      rw [conesOf, List.getElem?_cons_succ, (ih (k + 1)).2 i (by simpa using h)]
      simp
      omega

/-- **C36** Round trip.  Let the rays of the master cone be different, and let `cs` be cones with rays among them (with
right, wrong or no index hints).  Printing them into a file and reading the file with the same master cone gives the same
number of cones in the same order, numbered from 0, each with the same set of rays, every ray once, in decreasing order
of their number in the master cone, and with this number as the index hint. -/
theorem c36_round_trip (master : List (List ℤ)) (hm : master.Nodup) (cs : List SCone)
    (hcs : ∀ c ∈ cs, ∀ r ∈ c.rays, r.vec ∈ master) (hn : cs.length < 2 ^ 31) (hd : master.length < 2 ^ 31) :
    ∃ (text : List Char) (out : List SCone), writeSubcones master cs = .ok text ∧ readSubcones master text = some out ∧ out.length = cs.length ∧
      ∀ (i : ℕ) (c : SCone), cs[i]? = some c → ∃ o : SCone, out[i]? = some o ∧ o.hint = i ∧
        (∀ v, v ∈ o.rays.map Ray.vec ↔ v ∈ c.rays.map Ray.vec) ∧
        (o.rays.map Ray.vec).Nodup ∧ (o.rays.map Ray.hint).Pairwise (· > ·) ∧
        ∀ r ∈ o.rays, 0 ≤ r.hint ∧ master[r.hint.toNat]? = some r.vec := by
  obtain ⟨w, inds, h1, h2, h3⟩ := consumeCones_nodup master hm cs hcs (Writer.new master.length) rfl
  have hlen := h3.length_eq
  have hrun : (Writer.new master.length).run (inds.map WOp.write ++ [.update]) = some w.update := by
    have : ∀ (a b : List WOp) (w : Writer), w.run (a ++ b) = (w.run a).bind fun w' => w'.run b := by
      intro a b
      induction a with
      | nil => intro w; rfl
      | cons o a ih =>
        intro w
        simp only [List.cons_append, Writer.run]
        cases w.step o with
        | none => rfl
        | some w' => simp [ih]
    rw [this, h2]
    rfl
  refine ⟨w.update.content, conesOf master 0 inds, ?_, ?_, ?_, ?_⟩
  · rw [writeSubcones, h1]
  · have := c61_read_after_update master _ w.update [] hrun (by rw [written_map]; omega) hd
    rwa [List.append_nil, written_map] at this
  · rw [(conesOf_forall₂ master inds 0).1, hlen]
  · intro i c hc
    have hi : i < cs.length := (List.getElem?_eq_some_iff.1 hc).1
    have hci : cs[i] = c := (List.getElem?_eq_some_iff.1 hc).2
    have hi' : i < inds.length := by omega
    obtain ⟨hl, hind⟩ := (List.forall₂_iff_get.1 h3).2 i hi hi'
    simp only [List.get_eq_getElem, hci] at hl hind
    have hmem : ∀ r : Ray, r ∈ selected 0 master inds[i] ↔
        ∃ j, j < master.length ∧ (∃ r' ∈ c.rays, master.idxOf r'.vec = j) ∧ r = ⟨master.getD j [], (j : ℤ)⟩ := by
      intro r
      rw [mem_selected]
      simp only [hind, Nat.zero_add]
    refine ⟨_, (conesOf_forall₂ master inds 0).2 i hi', by simp, ?_, ?_, ?_, ?_⟩
    · intro v
      simp only [List.map_reverse, List.mem_reverse, List.mem_map]
      constructor
      · rintro ⟨r, hr, rfl⟩
        obtain ⟨j, hj, ⟨r', hr', hjr⟩, rfl⟩ := (hmem r).1 hr
        refine ⟨r', hr', ?_⟩
        subst hjr
        simp only
        rw [List.getD_eq_getElem _ _ hj, List.getElem_idxOf]
      · rintro ⟨r, hr, rfl⟩
        have hj : master.idxOf r.vec < master.length :=
          List.idxOf_lt_length_iff.2 (hcs c (by rw [← hci]; exact List.getElem_mem _) r hr)
        refine ⟨_, (hmem _).2 ⟨_, hj, ⟨r, hr, rfl⟩, rfl⟩, ?_⟩
        simp only
        rw [List.getD_eq_getElem _ _ hj, List.getElem_idxOf]
    · simp only [List.map_reverse, List.nodup_reverse]
      rw [List.nodup_iff_pairwise_ne, List.pairwise_map]
      refine (selected_pairwise master 0 inds[i]).imp_of_mem ?_
      intro a b ha hb hab heq
      obtain ⟨ja, hja, -, rfl⟩ := (hmem a).1 ha
      obtain ⟨jb, hjb, -, rfl⟩ := (hmem b).1 hb
      simp only [List.getD_eq_getElem _ _ hja, List.getD_eq_getElem _ _ hjb] at heq
      have := (List.Nodup.getElem_inj_iff hm).1 heq
      subst this
      simp at hab
    · simp only [List.map_reverse, List.pairwise_reverse, List.pairwise_map]
      exact selected_pairwise master 0 inds[i]
    · intro r hr
      simp only [List.mem_reverse] at hr
      obtain ⟨j, hj, -, rfl⟩ := (hmem r).1 hr
      refine ⟨by simp, ?_⟩
      simp [hj]

/-- **C36** A cone with a ray that is not a ray of the master cone is rejected with a message. -/
theorem c36_foreign_ray (master : List (List ℤ)) (hm : master.Nodup) (w : Writer) (c : SCone) (r : Ray)
    (hr : r ∈ c.rays) (hv : r.vec ∉ master) : consumeCone master w c = .exit := by
  have hnone : rayIndex master r = none := by
    unfold rayIndex
    rw [if_neg, indexMap, if_neg hv]
    rintro ⟨h1, h2, h3⟩
    have hlt : r.hint.toNat < master.length := by omega
    rw [List.getD_eq_getElem _ _ hlt] at h3
    exact hv (h3 ▸ List.getElem_mem _)
  have key : ∀ (rs : List Ray) (ind : List Bool), ind.length = master.length → r ∈ rs →
      indicator master rs ind = .exit := by
    intro rs
    induction rs with
    | nil => intro ind _ h; cases h
    | cons a rs ih =>
      intro ind hl h
      rw [indicator]
      by_cases ha : a.vec ∈ master
      · rw [rayIndex_nodup master hm a ha]
        simp only
        rw [if_pos (by rw [hl]; exact List.idxOf_lt_length_iff.2 ha)]
        rcases List.mem_cons.1 h with rfl | h
        · exact absurd ha hv
        · exact ih _ (by simpa using hl) h
      · have : rayIndex master a = none := by
          unfold rayIndex
          rw [if_neg, indexMap, if_neg ha]
          rintro ⟨h1, h2, h3⟩
          have hlt : a.hint.toNat < master.length := by omega
          rw [List.getD_eq_getElem _ _ hlt] at h3
          exact ha (h3 ▸ List.getElem_mem _)
        rw [this]
  rw [consumeCone, key c.rays _ (by simp [indexMapSize_nodup master hm]) hr]

/-- **C36, violated.** If a ray occurs twice in the master cone, no cone whatsoever can be printed: the program exits,
writes out of bounds or fails an assertion. -/
theorem c36_duplicate_ray_never_printed (master : List (List ℤ)) (hm : ¬ master.Nodup) (w : Writer)
    (hw : w.dimension = master.length) (c : SCone) (w' : Writer) : consumeCone master w c ≠ .ok w' := by
  have hlt : indexMapSize master < master.length := by
    unfold indexMapSize
    have h1 := (List.dedup_sublist master).length_le
    rcases Nat.lt_or_eq_of_le h1 with h | h
    · exact h
    · exact absurd (List.dedup_eq_self.1 ((List.dedup_sublist master).eq_of_length h)) hm
  have key : ∀ (rs : List Ray) (ind ind' : List Bool), indicator master rs ind = .ok ind' → ind'.length = ind.length := by
    intro rs
    induction rs with
    | nil => intro ind ind' h; simp only [indicator, Consume.ok.injEq] at h; rw [h]
    | cons r rs ih =>
      intro ind ind' h
      rw [indicator] at h
      split at h
      · cases h
      · split at h
        · simpa using ih _ _ h
        · cases h
  intro h
  unfold consumeCone at h
  split at h
  · rename_i ind hind
    have := key _ _ _ hind
    simp only [List.length_replicate] at this
    rw [Writer.writeVector, if_neg (by omega)] at h
    cases h
  · cases h
  · cases h
  · cases h

/-! ### Examples -/

/-- four rays of the cone over a square -/
def squareRays : List (List ℤ) := [[1, 0, 0], [1, 1, 0], [1, 0, 1], [1, 1, 1]]

/-- two triangles: the first without hints, the second with a wrong and a right hint -/
def squareCones : List SCone :=
  [⟨[⟨[1, 0, 0], -1⟩, ⟨[1, 1, 0], -1⟩, ⟨[1, 0, 1], -1⟩], -1⟩, ⟨[⟨[1, 1, 0], 3⟩, ⟨[1, 0, 1], 2⟩, ⟨[1, 1, 1], 9⟩], 5⟩]

example : squareRays.Nodup ∧ (∀ c ∈ squareCones, ∀ r ∈ c.rays, r.vec ∈ squareRays) := by decide

example : (match writeSubcones squareRays squareCones with | .ok t => readSubcones squareRays t | _ => none) =
    some [⟨[⟨[1, 0, 1], 2⟩, ⟨[1, 1, 0], 1⟩, ⟨[1, 0, 0], 0⟩], 0⟩, ⟨[⟨[1, 1, 1], 3⟩, ⟨[1, 0, 1], 2⟩, ⟨[1, 1, 0], 1⟩], 1⟩] := by
  decide +kernel

example : ¬ (([1, 0] : List ℤ) :: [[1, 0], [0, 1]]).Nodup := by decide

example : ∃ w, (Writer.new 2).run [.write [true, false], .update, .write [false, true]] = some w ∧
    readSubcones [[1], [2]] w.content = some [⟨[⟨[1], 0⟩], 0⟩] := ⟨_, rfl, by decide +kernel⟩

end Verif.Files

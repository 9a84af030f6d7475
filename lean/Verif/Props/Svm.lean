import Verif.Lemmas.Svm
import Verif.Lemmas.HullMargin
import Mathlib.Data.Rat.Floor

/-! C78: the optimistic numeric precondition (support vector machines). -/
namespace Props
open Model Spec

section
variable {K : Type} [Field K] [LinearOrder K] [IsStrictOrderedRing K] [FloorRing K]
variable {C : Type} [DecidableEq C]

/-- The learner after observations that have all the columns. -/
def svmAfter (cols : List C) (obs : List (Labeled K C)) : SvmData K C :=
  obs.foldl (fun s o => s.add (fun c => some (o.1 c)) o.2) (SvmData.init cols)

/-- The values of the successful observations. -/
def successes (obs : List (Labeled K C)) : List (C → K) := (obs.filter (·.2)).map Prod.fst

theorem svmAfter_data (cols : List C) (obs : List (Labeled K C)) :
    (svmAfter cols obs).cols = cols ∧ (svmAfter cols obs).rows = obs.map fun o => (fun c => some (o.1 c), o.2) := by
  suffices h : ∀ (l done : List (Labeled K C)) (s : SvmData K C), s.cols = cols → s.rows = done.map (fun o => (fun c => some (o.1 c), o.2)) →
      (l.foldl (fun s o => s.add (fun c => some (o.1 c)) o.2) s).cols = cols ∧
      (l.foldl (fun s o => s.add (fun c => some (o.1 c)) o.2) s).rows = (done ++ l).map fun o => (fun c => some (o.1 c), o.2) by
    have := h obs [] (SvmData.init cols) rfl rfl
    simpa [svmAfter] using this
  intro l
  induction l with
  | nil => intro done s h1 h2; simp [h1, h2]
  | cons o l ih =>
    intro done s h1 h2
    rw [List.foldl_cons]
    have := ih (done ++ [o]) (s.add (fun c => some (o.1 c)) o.2) ?_ ?_
    · simpa using this
    · unfold SvmData.add
      dsimp only
      split_ifs
      · rw [h1]
        unfold fullCols
        apply List.filter_eq_self.mpr
        intro c _
        rw [h2, List.all_eq_true]
        intro r hr
        simp only [List.mem_append, List.mem_map, List.mem_singleton] at hr
        rcases hr with ⟨_, _, rfl⟩ | rfl <;> rfl
      · exact h1
    · simp [SvmData.add, h2]

theorem svmAfter_full (cols : List C) (obs : List (Labeled K C)) : fullCols (svmAfter cols obs).cols (svmAfter cols obs).rows = cols := by
  rw [(svmAfter_data cols obs).1, (svmAfter_data cols obs).2]
  unfold fullCols
  apply List.filter_eq_self.mpr
  intro c _
  rw [List.all_eq_true]
  intro r hr
  obtain ⟨_, _, rfl⟩ := List.mem_map.mp hr
  rfl

theorem svmAfter_rows (cols : List C) (obs : List (Labeled K C)) : (svmAfter cols obs).rows.map rowOf = obs := by
  rw [(svmAfter_data cols obs).2, List.map_map]
  conv_rhs => rw [← List.map_id obs]
  apply List.map_congr_left
  intro o _
  rfl

theorem form_comb {a : List K} {cols : List C} {w : List K} {rows : List (C → K)} :
    form a cols (fun c => (List.zipWith (fun k (r : C → K) => k * r c) w rows).sum) =
      (List.zipWith (fun k r => k * form a cols r) w rows).sum := by
  have hadd : ∀ (a : List K) (cols : List C) (k : K) (r s : C → K), form a cols (fun c => k * r c + s c) = k * form a cols r + form a cols s := by
    intro a
    unfold form
    induction a with
    | nil => intro cols k r s; simp
    | cons x a ih =>
      intro cols k r s
      cases cols with
      | nil => simp
      | cons c cols =>
        simp only [List.zipWith_cons_cons, List.sum_cons]
        rw [ih]
        ring
  have hzero : ∀ (a : List K) (cols : List C), form a cols (fun _ => (0 : K)) = 0 := by
    intro a
    unfold form
    induction a with
    | nil => intro cols; simp
    | cons x a ih =>
      intro cols
      cases cols with
      | nil => simp
      | cons c cols =>
        have := ih cols
        simp only [List.zipWith_cons_cons, List.sum_cons, mul_zero, zero_add]
        simpa using this
  induction rows generalizing w with
  | nil => simp [hzero]
  | cons r rows ih =>
    cases w with
    | nil => simp [hzero]
    | cons k w =>
      simp only [List.zipWith_cons_cons, List.sum_cons]
      rw [hadd, ih]

theorem form_congr {a : List K} {cols : List C} {x y : C → K} (h : ∀ c ∈ cols, x c = y c) : form a cols x = form a cols y := by
  unfold form
  induction a generalizing cols with
  | nil => simp
  | cons k a ih =>
    cases cols with
    | nil => simp
    | cons c cols =>
      simp only [List.zipWith_cons_cons, List.sum_cons]
      rw [h c (by simp), ih fun c' hc' => h c' (by simp [hc'])]

/-- A half-space that contains the rows contains their hull. -/
theorem form_hull {a : List K} {cols : List C} {b : K} {rows : List (C → K)} (h : ∀ r ∈ rows, b ≤ form a cols r) {x : C → K}
    (hx : InHull cols rows x) : b ≤ form a cols x := by
  obtain ⟨w, w1, w2, w3, w4⟩ := hx
  rw [form_congr w4, form_comb]
  have : ∀ (w : List K) (rows : List (C → K)), w.length = rows.length → (∀ k ∈ w, 0 ≤ k) → (∀ r ∈ rows, b ≤ form a cols r) →
      b * w.sum ≤ (List.zipWith (fun k r => k * form a cols r) w rows).sum := by
    intro w
    induction w with
    | nil => intro rows _ _ _; simp
    | cons k w ih =>
      intro rows hl hk hr
      cases rows with
      | nil => simp at hl
      | cons r rows =>
        simp only [List.zipWith_cons_cons, List.sum_cons]
        have h1 := ih rows (by simpa using hl) (fun k hk' => hk k (by simp [hk'])) (fun r hr' => hr r (by simp [hr']))
        have h2 := mul_le_mul_of_nonneg_left (hr r (by simp)) (hk k (by simp))
        rw [mul_add, mul_comm b k]
        exact add_le_add h2 h1
  have := this w rows w1 w2 h
  rwa [w3, mul_one] at this

/-- Numbers that survive printing, and fluents not called "dummy". -/
structure SvmPrint (fit : SvmFit K C) (d : Nat) (colExp : C → NExp K) (cols : List C) (obs : List (Labeled K C)) : Prop where
  fit : ∀ x data a b, (x, false) ∈ obs → Training (successes obs) x data → fit cols data = some (a, b) →
    (∀ k ∈ a, Printable d k) ∧ Printable d b
  noDummy : ∀ c ∈ cols, colExp c ≠ .var "(dummy)"

/-- The written condition of a plane says that the linear form is at least the bound. -/
theorem plane_holds {fit : SvmFit K C} {d : Nat} {colExp : C → NExp K} {cols : List C} {obs : List (Labeled K C)}
    (P : SvmPrint fit d colExp cols obs) {all data : List (Labeled K C)} {z : C → K} (hz : (z, false) ∈ obs)
    (ht : Training (successes obs) z data) {a : List K} {b : K} (hf : fit cols data = some (a, b)) (x : String → K) :
    (linExp (mulTerms d (planeOf d cols all a b).coefs (cols.map colExp))).eval x = form a cols (fun c => (colExp c).eval x) ∧
      (planeOf d cols all a b).bound = b := by
  obtain ⟨p1, p2⟩ := P.fit z data a b hz ht hf
  constructor
  · show (linExp (mulTerms d (prettifyCoefs d a) (cols.map colExp))).eval x = _
    rw [prettifyCoefs_of_printable p1, eval_mulTerms_exact p1, List.zipWith_map_right]
    have hd := P.noDummy
    clear p1 hf P ht hz
    unfold form
    induction a generalizing cols with
    | nil => simp
    | cons k a ih =>
      cases cols with
      | nil => simp
      | cons c cols =>
        simp only [List.zipWith_cons_cons, List.sum_cons]
        rw [ih fun c' hc' => hd c' (by simp [hc']), featVal, if_neg (show ¬ colExp c = dummy from hd c (by simp))]
  · show (prettifyCoefs d [b]).headD 0 = b
    rw [prettifyCoefs_of_printable (by simpa using p2)]
    rfl

theorem svm_out {fit : SvmFit K C} {d : Nat} {colExp : C → NExp K} {cols : List C} {obs : List (Labeled K C)} {cs : List (NCond K)}
    (hout : svmInequalities fit d colExp (svmAfter cols obs) = .conds cs) :
    (obs = [] ∧ cs = []) ∨ ∃ ps, svmLoop fit d cols obs 100 obs = some ps ∧
      cs = (filterPlanes ps).map fun p => ⟨.ge, linExp (mulTerms d p.coefs (cols.map colExp)), .num p.bound⟩ := by
  unfold svmInequalities at hout
  by_cases hne : (svmAfter cols obs).rows = []
  · rw [if_pos hne] at hout
    left
    refine ⟨?_, by simpa using hout.symm⟩
    rw [(svmAfter_data cols obs).2] at hne
    simpa using hne
  · rw [if_neg hne] at hout
    right
    unfold svmPlanes at hout
    rw [svmAfter_full, svmAfter_rows, (svmAfter_data cols obs).1] at hout
    cases hl : svmLoop fit d cols obs 100 obs with
    | none => rw [hl] at hout; simp at hout
    | some ps =>
      rw [hl] at hout
      dsimp only [Option.map_some] at hout
      refine ⟨ps, rfl, ?_⟩
      rw [← parseConds_eq hout]
      unfold pddlScheme
      rw [List.zipWith_map]
      generalize filterPlanes ps = l
      induction l with
      | nil => rfl
      | cons p l ih => simp [ih]

/-- **C78, size.** The optimistic precondition has at most 100 conditions, and at most one for each failure. -/
theorem C78_size {fit : SvmFit K C} {d : Nat} {colExp : C → NExp K} {cols : List C} {obs : List (Labeled K C)} {cs : List (NCond K)}
    (hout : svmInequalities fit d colExp (svmAfter cols obs) = .conds cs) : cs.length ≤ 100 ∧ cs.length ≤ (obs.filter (!·.2)).length := by
  rcases svm_out hout with ⟨_, rfl⟩ | ⟨ps, hl, rfl⟩
  · simp
  · have h1 := svmLoop_length hl
    have h2 := (filterPlanes_sublist ps).length_le
    rw [List.length_map]
    unfold failures at h1
    omega

/-- **C78, nothing failed.** As long as no attempt has failed, or none has succeeded, the optimistic precondition is empty. -/
theorem C78_empty (fit : SvmFit K C) (d : Nat) (colExp : C → NExp K) (cols : List C) {obs : List (Labeled K C)}
    (h : (∀ o ∈ obs, o.2 = true) ∨ (∀ o ∈ obs, o.2 = false)) : svmInequalities fit d colExp (svmAfter cols obs) = .conds [] := by
  unfold svmInequalities
  by_cases hne : (svmAfter cols obs).rows = []
  · rw [if_pos hne]
  · rw [if_neg hne]
    unfold svmPlanes
    rw [svmAfter_full, svmAfter_rows, svmLoop_stop h]
    rfl

theorem contract_round {fit : SvmFit K C} {cols : List C} (hc : SvmContract fit cols) {obs : List (Labeled K C)}
    (hsep : ∀ x, (x, false) ∈ obs → ∃ a b, Separates cols (successes obs) x a b) {x : C → K} (hx : (x, false) ∈ obs)
    {data : List (Labeled K C)} (ht : Training ((obs.filter (·.2)).map Prod.fst) x data) {a : List K} {b : K} (hf : fit cols data = some (a, b)) :
    Separates cols (successes obs) x a b := by
  obtain ⟨a', b', h1, h2⟩ := hc data x ht.1 (by rw [ht.2]; exact hsep x hx)
  rw [hf] at h1
  cases h1
  rw [ht.2] at h2
  exact h2

/-- **C78, successes.** If each failure can be separated from the successes, every successful state satisfies the optimistic
precondition, and so does every state whose values are a convex combination of those of the successful ones. -/
theorem C78_successes_pass {fit : SvmFit K C} {d : Nat} {colExp : C → NExp K} {cols : List C} {obs : List (Labeled K C)}
    (P : SvmPrint fit d colExp cols obs) (hc : SvmContract fit cols) (hsep : ∀ x, (x, false) ∈ obs → ∃ a b, Separates cols (successes obs) x a b)
    {cs : List (NCond K)} (hout : svmInequalities fit d colExp (svmAfter cols obs) = .conds cs) {v : String → K}
    (hv : InHull cols (successes obs) (fun c => (colExp c).eval v)) : ∀ q ∈ cs, q.holds v := by
  rcases svm_out hout with ⟨_, rfl⟩ | ⟨ps, hl, rfl⟩
  · simp
  · intro q hq
    obtain ⟨p, hp, rfl⟩ := List.mem_map.mp hq
    obtain ⟨a, b, x, data, rfl, hx, ht, hf⟩ := svmLoop_planes hl p ((filterPlanes_sublist ps).subset hp)
    obtain ⟨h1, h2⟩ := plane_holds P (all := obs) hx ht hf v
    show (planeOf d cols obs a b).bound ≤ (linExp (mulTerms d (planeOf d cols obs a b).coefs (cols.map colExp))).eval v
    rw [h1, h2]
    exact form_hull (fun r hr => le_of_lt ((contract_round hc hsep hx ht hf).2.2 r hr)) hv

/-- **C78, failures, in general.** With at most 100 failures and at least one success, a failed state that still satisfies the optimistic
precondition meets one of its conditions with equality, unless the classifier trained on this failure and all successes did not
predict the failure. -/
theorem C78_failures {fit : SvmFit K C} {d : Nat} {colExp : C → NExp K} {cols : List C} {obs : List (Labeled K C)}
    (P : SvmPrint fit d colExp cols obs) (hpos : ∃ o ∈ obs, o.2 = true) (hmax : (obs.filter (!·.2)).length ≤ 100)
    {cs : List (NCond K)} (hout : svmInequalities fit d colExp (svmAfter cols obs) = .conds cs) {v : String → K} {x : C → K}
    (hx : (x, false) ∈ obs) (hv : ∀ c ∈ cols, (colExp c).eval v = x c) (hcs : ∀ q ∈ cs, q.holds v) :
    (∃ q ∈ cs, q.lhs.eval v = q.rhs.eval v) ∨
      ∃ data a b, Training (successes obs) x data ∧ fit cols data = some (a, b) ∧ b < form a cols x := by
  rcases svm_out hout with ⟨rfl, rfl⟩ | ⟨ps, hl, rfl⟩
  · simp at hx
  · rcases svmLoop_failures hl hmax hpos x hx with ⟨a, b, hp, hle⟩ | h
    · left
      obtain ⟨i, hi, he⟩ := List.mem_iff_getElem.mp hx
      have hlen : ∀ p ∈ ps, p.pred.length = obs.length := by
        intro p hp
        obtain ⟨a, b, x, data, rfl, _⟩ := svmLoop_planes hl p hp
        simp [planeOf]
      obtain ⟨q, hq, hqi⟩ := filterPlanes_cover hlen hp (i := i) (by
        simp only [planeOf]
        rw [List.getElem?_map, List.getElem?_eq_getElem hi, he]
        simpa using hle)
      obtain ⟨a', b', x', data', rfl, hx', ht, hf⟩ := svmLoop_planes hl q ((filterPlanes_sublist ps).subset hq)
      have hle' : form a' cols x ≤ b' := by
        simp only [planeOf] at hqi
        rw [List.getElem?_map, List.getElem?_eq_getElem hi, he] at hqi
        simpa using hqi
      obtain ⟨h1, h2⟩ := plane_holds P (all := obs) hx' ht hf v
      refine ⟨_, List.mem_map.mpr ⟨_, hq, rfl⟩, ?_⟩
      have hh := hcs _ (List.mem_map.mpr ⟨_, hq, rfl⟩)
      have hh : (planeOf d cols obs a' b').bound ≤ (linExp (mulTerms d (planeOf d cols obs a' b').coefs (cols.map colExp))).eval v := hh
      show (linExp (mulTerms d (planeOf d cols obs a' b').coefs (cols.map colExp))).eval v = (planeOf d cols obs a' b').bound
      rw [h1, h2] at hh ⊢
      rw [form_congr hv] at hh ⊢
      exact le_antisymm hle' hh
    · exact .inr h

/-- **C78, failures.** If each failure can be separated from the successes (and there are at most 100 failures, and a success), a failed
state that still satisfies the optimistic precondition meets one of its conditions with equality. -/
theorem C78_failures_rejected {fit : SvmFit K C} {d : Nat} {colExp : C → NExp K} {cols : List C} {obs : List (Labeled K C)}
    (P : SvmPrint fit d colExp cols obs) (hc : SvmContract fit cols) (hsep : ∀ x, (x, false) ∈ obs → ∃ a b, Separates cols (successes obs) x a b)
    (hpos : ∃ o ∈ obs, o.2 = true) (hmax : (obs.filter (!·.2)).length ≤ 100)
    {cs : List (NCond K)} (hout : svmInequalities fit d colExp (svmAfter cols obs) = .conds cs) {v : String → K} {x : C → K}
    (hx : (x, false) ∈ obs) (hv : ∀ c ∈ cols, (colExp c).eval v = x c) (hcs : ∀ q ∈ cs, q.holds v) :
    ∃ q ∈ cs, q.lhs.eval v = q.rhs.eval v := by
  rcases C78_failures P hpos hmax hout hx hv hcs with h | ⟨data, a, b, ht, hf, hlt⟩
  · exact h
  · have := (contract_round hc hsep hx ht hf).2.1
    exact absurd this (not_lt.mpr hlt.le)

/-- **C78, no exception.** If each failure can be separated from the successes and the planes have a coefficient that survives printing,
the learner does not fail. -/
theorem C78_no_exception {fit : SvmFit K C} {d : Nat} {colExp : C → NExp K} {cols : List C} (hc : SvmContract fit cols)
    {obs : List (Labeled K C)} (hsep : ∀ x, (x, false) ∈ obs → ∃ a b, Separates cols (successes obs) x a b) :
    svmInequalities fit d colExp (svmAfter cols obs) ≠ .notSafe := by
  have key : ∀ (n : Nat) (rem : List (Labeled K C)), (∀ r ∈ rem, r ∈ obs) → rem.filter (·.2) = obs.filter (·.2) →
      svmLoop fit d cols obs n rem ≠ none := by
    intro n
    induction n with
    | zero => intro rem _ _; simp [svmLoop]
    | succ n ih =>
      intro rem hsub hfil
      by_cases hpos : ∃ r ∈ rem, r.2 = true
      · by_cases hneg : ∃ r ∈ rem, r.2 = false
        · obtain ⟨pre, y, post, e, hstep⟩ := svmLoop_step (fit := fit) (d := d) (cols := cols) (all := obs) (n := n) hpos hneg
          rw [hstep]
          have ht : Training ((rem.filter (·.2)).map Prod.fst) y (pre.filter (·.2) ++ (y, false) :: post.filter (·.2)) := by
            rw [e]; exact training_round
          rw [hfil] at ht
          obtain ⟨a, b, h1, _⟩ := hc _ y ht.1 (by rw [ht.2]; exact hsep y (hsub _ (by rw [e]; simp)))
          rw [h1]
          dsimp only
          split_ifs
          · refine ih _ (fun r hr => hsub r ?_) ?_
            · rw [e]
              simp only [List.mem_append, List.mem_cons] at hr ⊢
              rcases hr with h | h
              · exact .inl h
              · exact .inr (.inr h)
            · rw [← hfil, e]; simp
          · intro hn
            have := Option.map_eq_none_iff.mp hn
            refine ih _ (fun r hr => hsub r (List.mem_of_mem_filter hr)) ?_ this
            rw [keep_pos (f := fun v => decide (form a cols v ≤ b)), hfil]
        · push Not at hneg
          rw [svmLoop_stop (.inl fun r hr => by simpa using hneg r hr)]; simp
      · push Not at hpos
        rw [svmLoop_stop (.inr fun r hr => by simpa using hpos r hr)]; simp
  unfold svmInequalities
  split_ifs with hne
  · simp
  · unfold svmPlanes
    rw [svmAfter_full, svmAfter_rows]
    cases hl : svmLoop fit d cols obs 100 obs with
    | none => exact absurd hl (key 100 obs (fun _ h => h) rfl)
    | some ps =>
      dsimp only [Option.map_some]
      unfold parseConds
      split_ifs <;> simp

end

/-! ### A concrete classifier on one fluent -/

namespace SvmCase

/-- One column; the classifier puts the bound in the middle between the failure and the nearest success on its side. -/
def fitOn {C : Type} (c0 : C) : SvmFit ℚ C := fun _ data =>
  let pos := (data.filter (·.2)).map fun r => r.1 c0
  match (data.filter (!·.2)).map fun r => r.1 c0 with
  | [] => none
  | x :: _ => match pos with
    | [] => some ([1], x + 1)
    | p :: ps =>
      let lo := ps.foldl min p
      let hi := ps.foldl max p
      if x < lo then some ([1], (x + lo) / 2) else some ([-1], -((x + hi) / 2))

theorem foldl_min_le : ∀ (ps : List ℚ) (p : ℚ), ps.foldl min p ≤ p ∧ (∀ q ∈ ps, ps.foldl min p ≤ q) ∧ (ps.foldl min p ∈ p :: ps)
  | [], p => by simp
  | q :: ps, p => by
    obtain ⟨h1, h2, h3⟩ := foldl_min_le ps (min p q)
    rw [List.foldl_cons]
    refine ⟨h1.trans (min_le_left _ _), ?_, ?_⟩
    · intro r hr
      rcases List.mem_cons.mp hr with rfl | hr
      · exact h1.trans (min_le_right _ _)
      · exact h2 r hr
    · rcases List.mem_cons.mp h3 with h | h
      · rw [h]; rcases min_choice p q with e | e <;> rw [e] <;> simp
      · simp [h]

theorem le_foldl_max : ∀ (ps : List ℚ) (p : ℚ), p ≤ ps.foldl max p ∧ (∀ q ∈ ps, q ≤ ps.foldl max p) ∧ (ps.foldl max p ∈ p :: ps)
  | [], p => by simp
  | q :: ps, p => by
    obtain ⟨h1, h2, h3⟩ := le_foldl_max ps (max p q)
    rw [List.foldl_cons]
    refine ⟨(le_max_left _ _).trans h1, ?_, ?_⟩
    · intro r hr
      rcases List.mem_cons.mp hr with rfl | hr
      · exact (le_max_right _ _).trans h1
      · exact h2 r hr
    · rcases List.mem_cons.mp h3 with h | h
      · rw [h]; rcases max_choice p q with e | e <;> rw [e] <;> simp
      · simp [h]

theorem form_one {C : Type} {c0 : C} (k : ℚ) (x : C → ℚ) : form [k] [c0] x = k * x c0 := by simp [form]

/-- The classifier meets the contract. -/
theorem contractOn {C : Type} (c0 : C) : SvmContract (fitOn c0) [c0] := by
  rintro data x ⟨pre, post, rfl, hall⟩ ⟨a, b, hlen, hxb, hpb⟩
  have hpre : ∀ r ∈ pre, r.2 = true := fun r hr => hall r (by simp [hr])
  have hpost : ∀ r ∈ post, r.2 = true := fun r hr => hall r (by simp [hr])
  have e1 : (pre ++ (x, false) :: post).filter (·.2) = pre ++ post := by
    rw [List.filter_append, List.filter_cons]
    simp only [Bool.false_eq_true, if_false]
    rw [List.filter_eq_self.mpr hpre, List.filter_eq_self.mpr hpost]
  have e2 : (pre ++ (x, false) :: post).filter (!·.2) = [(x, false)] := by
    rw [List.filter_append, List.filter_cons]
    rw [List.filter_eq_nil_iff.mpr (by simpa using hpre), List.filter_eq_nil_iff.mpr (by simpa using hpost)]
    rfl
  rw [e1] at hpb ⊢
  unfold fitOn
  rw [e1, e2]
  obtain ⟨k, rfl⟩ : ∃ k, a = [k] := by
    match a, hlen with
    | [k], _ => exact ⟨k, rfl⟩
  rw [form_one] at hxb
  have hpb : ∀ p ∈ pre ++ post, b < k * p.1 c0 := by
    intro p hp
    have := hpb p.1 (List.mem_map_of_mem hp)
    rwa [form_one] at this
  generalize pre ++ post = S at hpb ⊢
  dsimp only [List.map_cons, List.map_nil]
  cases S with
  | nil =>
    refine ⟨[1], x c0 + 1, rfl, rfl, ?_, by simp⟩
    rw [form_one]; linarith
  | cons p S =>
    obtain ⟨m1, m2, m3⟩ := foldl_min_le (S.map fun r => r.1 c0) (p.1 c0)
    obtain ⟨M1, M2, M3⟩ := le_foldl_max (S.map fun r => r.1 c0) (p.1 c0)
    simp only [List.map_cons, List.map_nil]
    generalize (S.map fun r => r.1 c0).foldl min (p.1 c0) = lo at *
    generalize (S.map fun r => r.1 c0).foldl max (p.1 c0) = hi at *
    have hlo : b < k * lo := by
      rcases List.mem_cons.mp m3 with h | h
      · rw [h]; exact hpb p (by simp)
      · obtain ⟨r, hr, he⟩ := List.mem_map.mp h
        rw [← he]; exact hpb r (by simp [hr])
    have hhi : b < k * hi := by
      rcases List.mem_cons.mp M3 with h | h
      · rw [h]; exact hpb p (by simp)
      · obtain ⟨r, hr, he⟩ := List.mem_map.mp h
        rw [← he]; exact hpb r (by simp [hr])
    by_cases hx : x c0 < lo
    · rw [if_pos hx]
      refine ⟨[1], _, rfl, rfl, ?_, ?_⟩
      · rw [form_one]; linarith
      · intro q hq
        have : lo ≤ q c0 := by
          rcases List.mem_cons.mp hq with rfl | hq
          · exact m1
          · obtain ⟨r, hr, rfl⟩ := List.mem_map.mp hq
            exact m2 _ (List.mem_map.mpr ⟨r, hr, rfl⟩)
        rw [form_one]; linarith
    · rw [if_neg hx]
      have hhx : hi < x c0 := by
        by_contra hc
        push Not at hx hc
        rcases le_total 0 k with hk | hk
        · nlinarith
        · nlinarith
      refine ⟨[-1], _, rfl, rfl, ?_, ?_⟩
      · rw [form_one]; linarith
      · intro q hq
        have : q c0 ≤ hi := by
          rcases List.mem_cons.mp hq with rfl | hq
          · exact M1
          · obtain ⟨r, hr, rfl⟩ := List.mem_map.mp hq
            exact M2 _ (List.mem_map.mpr ⟨r, hr, rfl⟩)
        rw [form_one]; linarith

abbrev fit : SvmFit ℚ Unit := fitOn ()
theorem contract : SvmContract fit [()] := contractOn ()

def exp : Unit → NExp ℚ := fun _ => .var "(f )"
def pt (q : ℚ) (ok : Bool) : Labeled ℚ Unit := (fun _ => q, ok)

/-- Successes at 2 and 4, failures at 0 and 6. -/
def obs : List (Labeled ℚ Unit) := [pt 2 true, pt 0 false, pt 4 true, pt 6 false]

theorem separable : ∀ x, (x, false) ∈ obs → ∃ a b, Separates [()] (successes obs) x a b := by
  intro x hx
  have hs : successes obs = [fun _ => 2, fun _ => 4] := rfl
  simp only [obs, pt, List.mem_cons, Prod.mk.injEq, Bool.false_eq_true, and_false, and_true, List.not_mem_nil, or_false, false_or] at hx
  rw [hs]
  rcases hx with rfl | rfl
  · exact ⟨[1], 1, rfl, by rw [form_one]; norm_num, by simp [form_one]⟩
  · exact ⟨[-1], -5, rfl, by rw [form_one]; norm_num, by simp [form_one]; norm_num⟩

/-- The learned conditions: `f ≥ 1` and `-f ≥ -5`. -/
example : (match svmInequalities fit 4 exp (svmAfter [()] obs) with
    | .conds cs => cs.map fun q => (q.lhs.eval fun _ => 3, q.rhs.eval fun _ => 0)
    | .notSafe => []
    | _ => []) = [((3 : ℚ), (1 : ℚ)), (-3, -5)] := by decide +kernel

example : svmInequalities fit 4 exp (svmAfter [()] obs) ≠ .notSafe := C78_no_exception contract separable

theorem print : SvmPrint fit 4 exp [()] obs := by
  refine ⟨?_, by simp [exp]⟩
  rintro x data a b hx ⟨⟨pre, post, rfl, hall⟩, hpos⟩ hf
  have hpre : ∀ r ∈ pre, r.2 = true := fun r hr => hall r (by simp [hr])
  have hpost : ∀ r ∈ post, r.2 = true := fun r hr => hall r (by simp [hr])
  have hs : successes obs = [fun _ => 2, fun _ => 4] := rfl
  have e2 : (pre ++ (x, false) :: post).filter (!·.2) = [(x, false)] := by
    rw [List.filter_append, List.filter_cons]
    rw [List.filter_eq_nil_iff.mpr (by simpa using hpre), List.filter_eq_nil_iff.mpr (by simpa using hpost)]
    rfl
  have e3 : ((pre ++ (x, false) :: post).filter (·.2)).map (fun r => r.1 ()) = [2, 4] := by
    have := congrArg (List.map fun r : Unit → ℚ => r ()) hpos
    rw [List.map_map, hs] at this
    exact this
  unfold fit fitOn at hf
  rw [e2, e3] at hf
  simp only [obs, pt, List.mem_cons, Prod.mk.injEq, Bool.false_eq_true, and_false, and_true, List.not_mem_nil, or_false, false_or] at hx
  rcases hx with rfl | rfl
  · have : ([(1 : ℚ)], (1 : ℚ)) = (a, b) := by
      have h : some ([(1 : ℚ)], (1 : ℚ)) = some (a, b) := by rw [← hf]; decide +kernel
      exact Option.some.inj h
    cases this
    constructor
    · intro k hk
      simp only [List.mem_singleton] at hk
      subst hk
      exact .inr ⟨by refine ⟨10000, ?_⟩; norm_num, by norm_num⟩
    · exact .inr ⟨by refine ⟨10000, ?_⟩; norm_num, by norm_num⟩
  · have : ([(-1 : ℚ)], (-5 : ℚ)) = (a, b) := by
      have h : some ([(-1 : ℚ)], (-5 : ℚ)) = some (a, b) := by rw [← hf]; decide +kernel
      exact Option.some.inj h
    cases this
    constructor
    · intro k hk
      simp only [List.mem_singleton] at hk
      subst hk
      exact .inr ⟨by refine ⟨-10000, ?_⟩; norm_num, by norm_num⟩
    · exact .inr ⟨by refine ⟨-50000, ?_⟩; norm_num, by norm_num⟩

/-- The conditions of a result. -/
def condsOf : HullOut ℚ → List (NCond ℚ)
  | .conds cs => cs
  | _ => []

theorem out : svmInequalities fit 4 exp (svmAfter [()] obs) = .conds (condsOf (svmInequalities fit 4 exp (svmAfter [()] obs))) := by
  decide +kernel

/-- The hypotheses of the theorems are met together: the value 3, between the successes, satisfies the optimistic precondition. -/
example : ∃ cs, svmInequalities fit 4 exp (svmAfter [()] obs) = .conds cs ∧ ∀ q ∈ cs, q.holds (fun _ => (3 : ℚ)) := by
  refine ⟨_, out, ?_⟩
  refine C78_successes_pass print contract separable out ⟨[1 / 2, 1 / 2], rfl, by norm_num, by norm_num, ?_⟩
  intro c _
  show (3 : ℚ) = _
  norm_num [successes, obs, pt]

/-- And no condition is met with equality at the failure 0, so it is rejected. -/
example : ∃ cs, svmInequalities fit 4 exp (svmAfter [()] obs) = .conds cs ∧ ¬ ∀ q ∈ cs, q.holds (fun _ => (0 : ℚ)) := by
  refine ⟨_, out, fun h => ?_⟩
  obtain ⟨q, hq, he⟩ := C78_failures_rejected print contract separable ⟨_, List.mem_cons_self, rfl⟩ (by decide) out (x := fun _ => 0)
    (v := fun _ => 0) (by simp [obs, pt]) (fun _ _ => rfl) h
  have : ((condsOf (svmInequalities fit 4 exp (svmAfter [()] obs))).all
    fun q => q.lhs.eval (fun _ => 0) != q.rhs.eval (fun _ => 0)) = true := by decide +kernel
  exact absurd he (by simpa using (List.all_eq_true.mp this) q hq)

/-- **C78, limit.** Without the assumption that each failure can be separated from the successes, a successful state may be rejected:
after the successes 0 and 4 and the failures 3 and 5, the bound learned for the failure 3 removes the success 4. -/
theorem C78_limit_success_rejected : SvmContract fit [()] ∧
    ∃ cs, svmInequalities fit 4 exp (svmAfter [()] [pt 0 true, pt 4 true, pt 3 false, pt 5 false]) = .conds cs ∧
      ∃ q ∈ cs, ¬ q.holds (fun _ => (4 : ℚ)) := by
  refine ⟨contract, condsOf (svmInequalities fit 4 exp (svmAfter [()] [pt 0 true, pt 4 true, pt 3 false, pt 5 false])), ?_, ?_⟩
  · decide +kernel
  have : ((condsOf (svmInequalities fit 4 exp (svmAfter [()] [pt 0 true, pt 4 true, pt 3 false, pt 5 false]))).any
    fun q => decide (q.cmp = .ge ∧ q.lhs.eval (fun _ => 4) < q.rhs.eval (fun _ => 4))) = true := by decide +kernel
  obtain ⟨q, hq, hc⟩ := List.any_eq_true.mp this
  refine ⟨q, hq, ?_⟩
  simp only [decide_eq_true_eq] at hc
  unfold NCond.holds
  rw [hc.1]
  exact not_le.mpr hc.2

/-- **C78, limit.** After a failed attempt in which the first of two fluents has no value, the coefficient learned for the second one is
written before the name of the first. -/
theorem C78_limit_columns :
    let fit : SvmFit ℚ Bool := fun cols _ => some (cols.map fun _ => 1, 2)
    let st := ((SvmData.init [false, true]).add (fun _ => some (3 : ℚ)) true).add (fun c => if c then some 1 else none) false
    svmInequalities fit 4 (fun c => .var (if c then "(g )" else "(f )")) st = .conds [⟨.ge, .var "(f )", .num 2⟩] := by
  decide +kernel

end SvmCase
end Props

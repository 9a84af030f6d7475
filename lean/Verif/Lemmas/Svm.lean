import Verif.Model.Svm
import Verif.Lemmas.HullLearner

namespace Model
open Spec

section
variable {K : Type} [Field K] [LinearOrder K] [IsStrictOrderedRing K] [FloorRing K]
variable {C : Type} [DecidableEq C]

theorem negPos_split {rem : List (Labeled K C)} {j : Nat} (h : j < (rem.filter (!·.2)).length) :
    ∃ pre x post, rem = pre ++ (x, false) :: post ∧ pre.length = negPos rem j := by
  induction rem generalizing j with
  | nil => simp at h
  | cons r rs ih =>
    obtain ⟨v, l⟩ := r
    cases l with
    | true =>
      obtain ⟨pre, x, post, e, hl⟩ := ih (j := j) (by simpa using h)
      exact ⟨(v, true) :: pre, x, post, by rw [e]; rfl, by simp [negPos, hl]⟩
    | false =>
      cases j with
      | zero => exact ⟨[], v, rs, rfl, by simp [negPos]⟩
      | succ j =>
        obtain ⟨pre, x, post, e, hl⟩ := ih (j := j) (by simpa using h)
        exact ⟨(v, false) :: pre, x, post, by rw [e]; rfl, by simp [negPos, hl]⟩

theorem zipIdx_train {pre post : List (Labeled K C)} {r : Labeled K C} (n : Nat) :
    (((pre ++ r :: post).zipIdx n).filterMap fun p => if p.1.2 || p.2 == n + pre.length then some p.1 else none) =
      pre.filter (·.2) ++ r :: post.filter (·.2) := by
  have hpost : ∀ (l : List (Labeled K C)) (m : Nat), n + pre.length < m →
      ((l.zipIdx m).filterMap fun p => if p.1.2 || p.2 == n + pre.length then some p.1 else none) = l.filter (·.2) := by
    intro l
    induction l with
    | nil => intro m _; rfl
    | cons a l ih =>
      intro m hm
      rw [List.zipIdx_cons, List.filterMap_cons, ih (m + 1) (by omega)]
      have : (m == n + pre.length) = false := by simp; omega
      simp only [this, Bool.or_false, List.filter_cons]
      cases a.2 <;> simp
  have hpre : ∀ (l : List (Labeled K C)) (m : Nat), m + l.length ≤ n + pre.length →
      ((l.zipIdx m).filterMap fun p => if p.1.2 || p.2 == n + pre.length then some p.1 else none) = l.filter (·.2) := by
    intro l
    induction l with
    | nil => intro m _; rfl
    | cons a l ih =>
      intro m hm
      rw [List.length_cons] at hm
      rw [List.zipIdx_cons, List.filterMap_cons, ih (m + 1) (by omega)]
      have : (m == n + pre.length) = false := by simp; omega
      simp only [this, Bool.or_false, List.filter_cons]
      cases a.2 <;> simp
  rw [List.zipIdx_append, List.filterMap_append, hpre pre n (le_refl _), List.zipIdx_cons, List.filterMap_cons, hpost post _ (by omega)]
  simp

theorem eraseIdx_split {α : Type} {pre post : List α} {a : α} : (pre ++ a :: post).eraseIdx pre.length = pre ++ post := by
  induction pre with
  | nil => rfl
  | cons b pre ih => simpa using ih

theorem closestNeg_lt {cols : List C} {pos neg : List (C → K)} (h : neg ≠ []) : closestNeg cols pos neg < neg.length :=
  Nat.mod_lt _ (List.length_pos_of_ne_nil h)

/-- A round of the loop. -/
theorem svmLoop_step {fit : SvmFit K C} {d : Nat} {cols : List C} {all : List (Labeled K C)} {n : Nat} {rem : List (Labeled K C)}
    (hp : ∃ r ∈ rem, r.2 = true) (hn : ∃ r ∈ rem, r.2 = false) :
    ∃ pre x post, rem = pre ++ (x, false) :: post ∧
      svmLoop fit d cols all (n + 1) rem =
        match fit cols (pre.filter (·.2) ++ (x, false) :: post.filter (·.2)) with
        | none => none
        | some (a, b) =>
          if (rem.filter fun r => !(!r.2 && decide (form a cols r.1 ≤ b))).length = rem.length then svmLoop fit d cols all n (pre ++ post)
          else (svmLoop fit d cols all n (rem.filter fun r => !(!r.2 && decide (form a cols r.1 ≤ b)))).map fun ps =>
            ⟨prettifyCoefs d a, (prettifyCoefs d [b]).headD 0, all.map fun r => decide (form a cols r.1 ≤ b)⟩ :: ps := by
  have hneg : (rem.filter (!·.2)).map Prod.fst ≠ [] := by
    obtain ⟨r, hr, h⟩ := hn
    intro e
    have : r ∈ rem.filter (!·.2) := List.mem_filter.mpr ⟨hr, by simp [h]⟩
    rw [List.map_eq_nil_iff.mp e] at this
    simp at this
  obtain ⟨pre, x, post, e, hl⟩ := negPos_split (rem := rem)
    (j := closestNeg cols ((rem.filter (·.2)).map Prod.fst) ((rem.filter (!·.2)).map Prod.fst)) (by
      have := closestNeg_lt (cols := cols) (pos := (rem.filter (·.2)).map Prod.fst) hneg
      simpa using this)
  refine ⟨pre, x, post, e, ?_⟩
  rw [svmLoop]
  have hcond : (rem.all (·.2) || rem.all (!·.2)) = false := by
    rw [Bool.or_eq_false_iff, List.all_eq_false, List.all_eq_false]
    obtain ⟨r, hr, h⟩ := hn
    obtain ⟨r', hr', h'⟩ := hp
    exact ⟨⟨r, hr, by simp [h]⟩, ⟨r', hr', by simp [h']⟩⟩
  rw [hcond]
  simp only [Bool.false_eq_true, if_false]
  rw [← hl]
  have htr := zipIdx_train (pre := pre) (post := post) (r := (x, false)) 0
  rw [← e, Nat.zero_add] at htr
  rw [htr]
  have her : rem.eraseIdx pre.length = pre ++ post := by rw [e]; exact eraseIdx_split
  rw [her]
  rfl

theorem svmLoop_stop {fit : SvmFit K C} {d : Nat} {cols : List C} {all : List (Labeled K C)} {n : Nat} {rem : List (Labeled K C)}
    (h : (∀ r ∈ rem, r.2 = true) ∨ (∀ r ∈ rem, r.2 = false)) : svmLoop fit d cols all n rem = some [] := by
  cases n with
  | zero => rfl
  | succ n =>
    rw [svmLoop, if_pos]
    rw [Bool.or_eq_true, List.all_eq_true, List.all_eq_true]
    rcases h with h | h
    · exact .inl h
    · exact .inr fun r hr => by simp [h r hr]

/-- The plane of the linear form `a` and bound `b`. -/
def planeOf (d : Nat) (cols : List C) (all : List (Labeled K C)) (a : List K) (b : K) : SvmPlane K :=
  ⟨prettifyCoefs d a, (prettifyCoefs d [b]).headD 0, all.map fun r => decide (form a cols r.1 ≤ b)⟩

/-- The number of failures. -/
def failures (l : List (Labeled K C)) : Nat := (l.filter (!·.2)).length

/-- The training set of a round: one failure and all the successes. -/
def Training (pos : List (C → K)) (x : C → K) (data : List (Labeled K C)) : Prop :=
  (∃ pre post, data = pre ++ (x, false) :: post ∧ ∀ r ∈ pre ++ post, r.2 = true) ∧ (data.filter (·.2)).map Prod.fst = pos

theorem training_round {pre post : List (Labeled K C)} {x : C → K} :
    Training (((pre ++ (x, false) :: post).filter (·.2)).map Prod.fst) x (pre.filter (·.2) ++ (x, false) :: post.filter (·.2)) := by
  refine ⟨⟨_, _, rfl, ?_⟩, ?_⟩
  · intro r hr
    rcases List.mem_append.mp hr with hr | hr
    · exact (List.mem_filter.mp hr).2
    · exact (List.mem_filter.mp hr).2
  · simp

theorem failures_split {pre post : List (Labeled K C)} {x : C → K} :
    failures (pre ++ (x, false) :: post) = failures (pre ++ post) + 1 := by
  simp [failures]
  omega

theorem keep_pos {rem : List (Labeled K C)} {f : (C → K) → Bool} :
    (rem.filter fun r => !(!r.2 && f r.1)).filter (·.2) = rem.filter (·.2) := by
  rw [List.filter_filter]
  apply List.filter_congr
  intro r _
  cases r.2 <;> simp

theorem keep_failures {rem : List (Labeled K C)} {f : (C → K) → Bool}
    (h : (rem.filter fun r => !(!r.2 && f r.1)).length ≠ rem.length) : failures (rem.filter fun r => !(!r.2 && f r.1)) < failures rem := by
  induction rem with
  | nil => simp at h
  | cons r rs ih =>
    have hle : ∀ l : List (Labeled K C), failures (l.filter fun r => !(!r.2 && f r.1)) ≤ failures l := fun l =>
      (List.Sublist.filter _ (List.filter_sublist)).length_le
    obtain ⟨v, l⟩ := r
    cases l with
    | true =>
      have := ih (by simpa [List.filter_cons] using h)
      simpa [List.filter_cons, failures] using this
    | false =>
      cases hf : f v with
      | true =>
        have := hle rs
        simp [List.filter_cons, failures, hf] at this ⊢
        omega
      | false =>
        have := ih (by simpa [List.filter_cons, hf] using h)
        simpa [List.filter_cons, failures, hf] using this

/-- What the loop does with the failures: each is predicted to fail by a plane, or was given up because the classifier trained on it
and the successes does not predict its failure. -/
theorem svmLoop_failures {fit : SvmFit K C} {d : Nat} {cols : List C} {all : List (Labeled K C)} {n : Nat} :
    ∀ {rem : List (Labeled K C)} {ps : List (SvmPlane K)}, svmLoop fit d cols all n rem = some ps → failures rem ≤ n → (∃ r ∈ rem, r.2 = true) →
      ∀ x, (x, false) ∈ rem →
        (∃ a b, planeOf d cols all a b ∈ ps ∧ form a cols x ≤ b) ∨
        ∃ data a b, Training ((rem.filter (·.2)).map Prod.fst) x data ∧ fit cols data = some (a, b) ∧ b < form a cols x := by
  induction n with
  | zero =>
    intro rem ps _ hf _ x hx
    exfalso
    have : (x, false) ∈ rem.filter (!·.2) := List.mem_filter.mpr ⟨hx, rfl⟩
    rw [List.eq_nil_of_length_eq_zero (Nat.le_zero.mp hf)] at this
    simp at this
  | succ n ih =>
    intro rem ps h hf hp x hx
    obtain ⟨pre, y, post, e, hstep⟩ := svmLoop_step (fit := fit) (d := d) (cols := cols) (all := all) (n := n) hp ⟨_, hx, rfl⟩
    rw [hstep] at h
    have htrain : Training ((rem.filter (·.2)).map Prod.fst) y (pre.filter (·.2) ++ (y, false) :: post.filter (·.2)) := by
      rw [e]; exact training_round
    cases hfit : fit cols (pre.filter (·.2) ++ (y, false) :: post.filter (·.2)) with
    | none => rw [hfit] at h; simp at h
    | some ab =>
      obtain ⟨a, b⟩ := ab
      rw [hfit] at h
      dsimp only at h
      by_cases hk : (rem.filter fun r => !(!r.2 && decide (form a cols r.1 ≤ b))).length = rem.length
      · rw [if_pos hk] at h
        have hall := List.filter_eq_self.mp ((List.filter_sublist (p := fun r : Labeled K C => !(!r.2 && decide (form a cols r.1 ≤ b)))).eq_of_length hk)
        by_cases hxy : x = y
        · subst hxy
          right
          refine ⟨_, a, b, htrain, hfit, ?_⟩
          have := hall (x, false) hx
          simpa using this
        · have hf' : failures (pre ++ post) ≤ n := by
            rw [e, failures_split] at hf; omega
          have hpos : (pre ++ post).filter (·.2) = rem.filter (·.2) := by rw [e]; simp
          obtain ⟨r, hr, hrt⟩ := hp
          have hp' : ∃ r ∈ pre ++ post, r.2 = true := by
            have : r ∈ rem.filter (·.2) := List.mem_filter.mpr ⟨hr, hrt⟩
            rw [← hpos] at this
            exact ⟨r, List.mem_of_mem_filter this, hrt⟩
          have hx' : (x, false) ∈ pre ++ post := by
            rw [e] at hx
            simp only [List.mem_append, List.mem_cons, Prod.mk.injEq] at hx ⊢
            rcases hx with h | ⟨h, _⟩ | h
            · exact .inl h
            · exact absurd h hxy
            · exact .inr h
          have := ih h hf' hp' x hx'
          rw [hpos] at this
          exact this
      · rw [if_neg hk] at h
        obtain ⟨ps', h', rfl⟩ := Option.map_eq_some_iff.mp h
        by_cases hxf : form a cols x ≤ b
        · exact .inl ⟨a, b, by simp [planeOf], hxf⟩
        · have hkf := keep_failures (f := fun v => decide (form a cols v ≤ b)) hk
          obtain ⟨r, hr, hrt⟩ := hp
          have hp' : ∃ r ∈ rem.filter (fun r => !(!r.2 && decide (form a cols r.1 ≤ b))), r.2 = true :=
            ⟨r, List.mem_filter.mpr ⟨hr, by simp [hrt]⟩, hrt⟩
          have hx' : (x, false) ∈ rem.filter (fun r => !(!r.2 && decide (form a cols r.1 ≤ b))) :=
            List.mem_filter.mpr ⟨hx, by simpa using hxf⟩
          have := ih h' (by omega) hp' x hx'
          rw [keep_pos (f := fun v => decide (form a cols v ≤ b))] at this
          rcases this with ⟨a', b', h1, h2⟩ | h1
          · exact .inl ⟨a', b', by simp [h1], h2⟩
          · exact .inr h1

/-- Each plane comes from a round. -/
theorem svmLoop_planes {fit : SvmFit K C} {d : Nat} {cols : List C} {all : List (Labeled K C)} {n : Nat} :
    ∀ {rem : List (Labeled K C)} {ps : List (SvmPlane K)}, svmLoop fit d cols all n rem = some ps →
      ∀ p ∈ ps, ∃ a b x data, p = planeOf d cols all a b ∧ (x, false) ∈ rem ∧ Training ((rem.filter (·.2)).map Prod.fst) x data ∧
        fit cols data = some (a, b) := by
  induction n with
  | zero => intro rem ps h p hp; simp [svmLoop] at h; subst h; simp at hp
  | succ n ih =>
    intro rem ps h p hp
    by_cases hpos : ∃ r ∈ rem, r.2 = true
    · by_cases hneg : ∃ r ∈ rem, r.2 = false
      · obtain ⟨pre, y, post, e, hstep⟩ := svmLoop_step (fit := fit) (d := d) (cols := cols) (all := all) (n := n) hpos hneg
        rw [hstep] at h
        have htrain : Training ((rem.filter (·.2)).map Prod.fst) y (pre.filter (·.2) ++ (y, false) :: post.filter (·.2)) := by
          rw [e]; exact training_round
        cases hfit : fit cols (pre.filter (·.2) ++ (y, false) :: post.filter (·.2)) with
        | none => rw [hfit] at h; simp at h
        | some ab =>
          obtain ⟨a, b⟩ := ab
          rw [hfit] at h
          dsimp only at h
          split_ifs at h with hk
          · obtain ⟨a', b', x, data, h1, h2, h3, h4⟩ := ih h p hp
            have hpos : (pre ++ post).filter (·.2) = rem.filter (·.2) := by rw [e]; simp
            refine ⟨a', b', x, data, h1, ?_, by rw [← hpos]; exact h3, h4⟩
            rw [e]
            simp only [List.mem_append, List.mem_cons] at h2 ⊢
            rcases h2 with h | h
            · exact .inl h
            · exact .inr (.inr h)
          · obtain ⟨ps', h', rfl⟩ := Option.map_eq_some_iff.mp h
            rcases List.mem_cons.mp hp with rfl | hp
            · exact ⟨a, b, y, _, rfl, by rw [e]; simp, htrain, hfit⟩
            · obtain ⟨a', b', x, data, h1, h2, h3, h4⟩ := ih h' p hp
              rw [keep_pos (f := fun v => decide (form a cols v ≤ b))] at h3
              exact ⟨a', b', x, data, h1, List.mem_of_mem_filter h2, h3, h4⟩
      · push Not at hneg
        rw [svmLoop_stop (.inl fun r hr => by simpa using hneg r hr)] at h
        cases h; simp at hp
    · push Not at hpos
      rw [svmLoop_stop (.inr fun r hr => by simpa using hpos r hr)] at h
      cases h; simp at hp

/-- At most one plane for each round. -/
theorem svmLoop_length {fit : SvmFit K C} {d : Nat} {cols : List C} {all : List (Labeled K C)} {n : Nat} :
    ∀ {rem : List (Labeled K C)} {ps : List (SvmPlane K)}, svmLoop fit d cols all n rem = some ps → ps.length ≤ n ∧ ps.length ≤ failures rem := by
  induction n with
  | zero => intro rem ps h; simp [svmLoop] at h; subst h; simp
  | succ n ih =>
    intro rem ps h
    by_cases hpos : ∃ r ∈ rem, r.2 = true
    · by_cases hneg : ∃ r ∈ rem, r.2 = false
      · obtain ⟨pre, y, post, e, hstep⟩ := svmLoop_step (fit := fit) (d := d) (cols := cols) (all := all) (n := n) hpos hneg
        rw [hstep] at h
        cases hfit : fit cols (pre.filter (·.2) ++ (y, false) :: post.filter (·.2)) with
        | none => rw [hfit] at h; simp at h
        | some ab =>
          obtain ⟨a, b⟩ := ab
          rw [hfit] at h
          dsimp only at h
          split_ifs at h with hk
          · have := ih h
            rw [e, failures_split]
            omega
          · obtain ⟨ps', h', rfl⟩ := Option.map_eq_some_iff.mp h
            have := ih h'
            have hkf := keep_failures (f := fun v => decide (form a cols v ≤ b)) hk
            rw [List.length_cons]
            omega
      · push Not at hneg
        rw [svmLoop_stop (.inl fun r hr => by simpa using hneg r hr)] at h
        cases h; simp
    · push Not at hpos
      rw [svmLoop_stop (.inr fun r hr => by simpa using hpos r hr)] at h
      cases h; simp

theorem filterPlanes_sublist (ps : List (SvmPlane K)) : (filterPlanes ps).Sublist ps := by
  induction ps with
  | nil => exact List.Sublist.refl _
  | cons p ps ih =>
    rw [filterPlanes]
    split_ifs
    · exact ih.cons p
    · exact ih.cons_cons p

/-- Every removed plane is covered by one that stays. -/
theorem filterPlanes_cover {m : Nat} {ps : List (SvmPlane K)} (hl : ∀ p ∈ ps, p.pred.length = m) {p : SvmPlane K} (hp : p ∈ ps) {i : Nat}
    (h : p.pred[i]? = some true) : ∃ q ∈ filterPlanes ps, q.pred[i]? = some true := by
  induction ps generalizing p with
  | nil => simp at hp
  | cons r ps ih =>
    have hl' : ∀ p ∈ ps, p.pred.length = m := fun p hp => hl p (by simp [hp])
    rw [filterPlanes]
    split_ifs with hs
    · rcases List.mem_cons.mp hp with rfl | hp
      · rw [List.any_eq_true] at hs
        obtain ⟨q, hq, hall⟩ := hs
        refine ih hl' hq ?_
        obtain ⟨hi, he⟩ := List.getElem?_eq_some_iff.mp h
        have hqi : i < q.pred.length := by rw [hl' q hq, ← hl p (by simp)]; exact hi
        rw [List.getElem?_eq_some_iff]
        refine ⟨hqi, ?_⟩
        have hm : (p.pred[i], q.pred[i]) ∈ List.zip p.pred q.pred := by
          rw [List.mem_iff_getElem]
          exact ⟨i, by simp; omega, by simp⟩
        have := List.all_eq_true.mp hall _ hm
        simpa [he] using this
      · exact ih hl' hp h
    · rcases List.mem_cons.mp hp with rfl | hp
      · exact ⟨p, by simp, h⟩
      · obtain ⟨q, hq, h'⟩ := ih hl' hp h
        exact ⟨q, by simp [hq], h'⟩

end
end Model

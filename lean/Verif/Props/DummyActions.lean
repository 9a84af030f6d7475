import Verif.Model.DummyActions
import Mathlib.Data.List.GetD

/-! C97: dummy actions inserted into multi-agent plans. -/
namespace Props
namespace Dummy
open Model Model.Dummy

/-- Exactly one idle agent of `j` is given a dummy action in `j'`; all other entries are kept. -/
def OneDummy (agents : List String) (j j' : Joint) (name : String) : Prop :=
  ∃ k g, j[k]? = some .nop ∧ agents[k]? = some g ∧ j' = j.set k (.call name [g])

/-- `j'` is `j`, or `j` with one dummy action for an idle agent. -/
def Kept (agents : List String) (j j' : Joint) : Prop :=
  j' = j ∨ OneDummy agents j j' addName ∨ OneDummy agents j j' delName

theorem pickFree_none {j : Joint} {n : Nat} : pickFree j n = none ↔ .nop ∉ j := by
  unfold pickFree freeSlots
  dsimp only
  constructor
  · intro h hm
    obtain ⟨k, hk, e⟩ := List.mem_iff_getElem.mp hm
    have hmem : k ∈ (List.range j.length).filter fun i => j[i]? = some .nop := by
      simp [hk, e]
    have hpos := List.length_pos_of_mem hmem
    rw [if_neg (Nat.ne_of_gt hpos), List.getElem?_eq_none_iff] at h
    exact absurd (Nat.mod_lt n hpos) (Nat.not_lt.mpr h)
  · intro h
    rw [if_pos]
    rw [List.length_eq_zero_iff, List.filter_eq_nil_iff]
    intro i _ hi
    exact h (List.mem_of_getElem? (by simpa using hi))

theorem pickFree_some {j : Joint} {n k : Nat} (h : pickFree j n = some k) : j[k]? = some .nop := by
  unfold pickFree freeSlots at h
  dsimp only at h
  split at h
  · cases h
  · have := List.mem_of_getElem? h
    simpa using (List.mem_filter.mp this).2

theorem put_ok {agents : List String} {j j' : Joint} {k : Nat} {name : String} (hk : j[k]? = some .nop)
    (h : put agents j k name = .ok j') : OneDummy agents j j' name := by
  unfold put at h
  split at h
  · cases h
  · rename_i g hg
    exact ⟨k, g, hk, hg, (Except.ok.inj h).symm⟩

theorem put_total {agents : List String} {j : Joint} {k : Nat} {name : String} (hl : j.length ≤ agents.length)
    (hk : j[k]? = some .nop) : ∃ j', put agents j k name = .ok j' := by
  unfold put
  have : k < agents.length := lt_of_lt_of_le (List.getElem?_eq_some_iff.mp hk).1 hl
  rw [List.getElem?_eq_getElem this]
  exact ⟨_, rfl⟩

variable {agents : List String} {draws : Nat → Draw} {last : Nat}

/-- What the loop does to the joint action at index `i`. -/
def LoopStep (agents : List String) (draws : Nat → Draw) (last i : Nat) (j j' : Joint) : Prop :=
  if last ≤ i ∨ (draws i).add = false ∨ .nop ∉ j then j' = j
  else OneDummy agents j j' (if (draws i).del then delName else addName)

theorem loop_spec {i : Nat} {plan : List Joint} (hl : ∀ j ∈ plan, j.length ≤ agents.length) :
    ∃ p q, loop agents draws last i plan = .ok (p, q) ∧ p.length = plan.length ∧
      (∀ (n : Nat) (j : Joint), plan[n]? = some j → ∃ j' : Joint, p[n]? = some j' ∧ LoopStep agents draws last (i + n) j j') ∧
      q.Sublist p ∧
      q = ((p.zip plan).zipIdx i).filterMap (fun x =>
        if last ≤ x.2 ∨ ((draws x.2).add = true ∧ .nop ∈ x.1.2) then some x.1.1 else none) := by
  induction plan generalizing i with
  | nil => exact ⟨[], [], rfl, rfl, by simp, by simp, rfl⟩
  | cons j js ih =>
    obtain ⟨p, q, h1, h2, h3, h4, h5⟩ := ih (i := i + 1) (fun x hx => hl x (List.mem_cons_of_mem _ hx))
    have lift : ∀ j', LoopStep agents draws last i j j' →
        ∀ n x, (j :: js)[n]? = some x → ∃ j'', (j' :: p)[n]? = some j'' ∧ LoopStep agents draws last (i + n) x j'' := by
      intro j' hj' n x hx
      cases n with
      | zero =>
        simp only [List.getElem?_cons_zero, Option.some.injEq] at hx
        subst hx
        exact ⟨j', rfl, hj'⟩
      | succ n =>
        rw [List.getElem?_cons_succ] at hx
        obtain ⟨j'', a, b⟩ := h3 n x hx
        refine ⟨j'', by simpa using a, ?_⟩
        have : i + (n + 1) = i + 1 + n := by omega
        rw [this]; exact b
    unfold loop
    by_cases c1 : last ≤ i
    · rw [if_pos c1, h1]
      refine ⟨j :: p, j :: q, rfl, by simp [h2], lift j (by unfold LoopStep; rw [if_pos (Or.inl c1)]), h4.cons_cons j, ?_⟩
      simp only [List.zip_cons_cons, List.zipIdx_cons, List.filterMap_cons, if_pos (Or.inl c1 : last ≤ i ∨ _), ← h5]
    · rw [if_neg c1]
      by_cases c2 : (draws i).add = false
      · rw [if_pos c2, h1]
        refine ⟨j :: p, q, rfl, by simp [h2], lift j (by unfold LoopStep; rw [if_pos (Or.inr (Or.inl c2))]), h4.cons j, ?_⟩
        have : ¬ (last ≤ i ∨ ((draws i).add = true ∧ Slot.nop ∈ j)) := by simp [c1, c2]
        simp only [List.zip_cons_cons, List.zipIdx_cons, List.filterMap_cons, if_neg this, ← h5]
      · rw [if_neg c2]
        cases hp : pickFree j (draws i).slot with
        | none =>
          have hn := pickFree_none.mp hp
          simp only [h1]
          refine ⟨j :: p, q, rfl, by simp [h2], lift j (by unfold LoopStep; rw [if_pos (Or.inr (Or.inr hn))]), h4.cons j, ?_⟩
          have : ¬ (last ≤ i ∨ ((draws i).add = true ∧ Slot.nop ∈ j)) := by simp [c1, hn]
          simp only [List.zip_cons_cons, List.zipIdx_cons, List.filterMap_cons, if_neg this, ← h5]
        | some k =>
          have hk := pickFree_some hp
          obtain ⟨j', hj'⟩ := put_total (name := if (draws i).del then delName else addName) (hl j List.mem_cons_self) hk
          have hmem : Slot.nop ∈ j := List.mem_of_getElem? hk
          simp only [hj', h1]
          refine ⟨j' :: p, j' :: q, rfl, by simp [h2], lift j' ?_, h4.cons_cons j', ?_⟩
          · unfold LoopStep
            rw [if_neg (by simp [c1, hmem]; simpa using c2)]
            exact put_ok hk hj'
          · have : last ≤ i ∨ ((draws i).add = true ∧ Slot.nop ∈ j) := Or.inr ⟨by simpa using c2, hmem⟩
            simp only [List.zip_cons_cons, List.zipIdx_cons, List.filterMap_cons, if_pos this, ← h5]

/-- The search for the goal's dummy action on the reversed plan. -/
theorem goalStep_spec {pick : Nat → Nat} {i : Nat} {rev : List Joint} (hi : rev.length ≤ i + 1)
    (hl : ∀ j ∈ rev, j.length ≤ agents.length) :
    ((∀ j ∈ rev, .nop ∉ j) ∧ goalStep agents pick i rev = .ok (rev, none)) ∨
    ∃ pre j post j', rev = pre ++ j :: post ∧ (∀ x ∈ pre, .nop ∉ x) ∧ .nop ∈ j ∧ OneDummy agents j j' addName ∧
      goalStep agents pick i rev = .ok (pre ++ j' :: post, some (i - pre.length)) := by
  induction rev generalizing i with
  | nil => left; exact ⟨by simp, rfl⟩
  | cons a as ih =>
    unfold goalStep
    cases hp : pickFree a (pick i) with
    | some k =>
      right
      have hk := pickFree_some hp
      obtain ⟨j', hj'⟩ := put_total (name := addName) (hl a List.mem_cons_self) hk
      refine ⟨[], a, as, j', rfl, by simp, List.mem_of_getElem? hk, put_ok hk hj', ?_⟩
      simp only [hj', List.nil_append, List.length_nil, Nat.sub_zero]
    | none =>
      have hn := pickFree_none.mp hp
      simp only
      rcases ih (i := i - 1) (by simp only [List.length_cons] at hi; omega) (fun x hx => hl x (List.mem_cons_of_mem _ hx)) with ⟨h1, h2⟩ | ⟨pre, j, post, j', h1, h2, h3, h4, h5⟩
      · left
        rw [h2]
        refine ⟨?_, rfl⟩
        intro x hx
        rcases List.mem_cons.mp hx with rfl | hx
        · exact hn
        · exact h1 x hx
      · right
        refine ⟨a :: pre, j, post, j', by rw [h1]; rfl, ?_, h3, h4, ?_⟩
        · intro x hx
          rcases List.mem_cons.mp hx with rfl | hx
          · exact hn
          · exact h2 x hx
        · rw [h5]
          simp only [List.cons_append, List.length_cons]
          congr 3
          omega

open Classical in
/-- The value of the dummy predicate after the joint actions: an add makes it true, a delete false. -/
noncomputable def dummyAfter : Bool → List Joint → Bool
  | b, [] => b
  | b, j :: js => dummyAfter (if (∃ ps, Slot.call addName ps ∈ j) then true else if (∃ ps, Slot.call delName ps ∈ j) then false else b) js

/-- The plan calls no dummy action. -/
def NoDummy (plan : List Joint) : Prop := ∀ j ∈ plan, ∀ ps, Slot.call addName ps ∉ j ∧ Slot.call delName ps ∉ j

theorem dummyAfter_noDummy {b : Bool} {js : List Joint} (h : NoDummy js) : dummyAfter b js = b := by
  induction js generalizing b with
  | nil => rfl
  | cons j js ih =>
    unfold dummyAfter
    rw [if_neg, if_neg, ih (fun x hx => h x (List.mem_cons_of_mem _ hx))]
    · rintro ⟨ps, hp⟩; exact (h j List.mem_cons_self ps).2 hp
    · rintro ⟨ps, hp⟩; exact (h j List.mem_cons_self ps).1 hp

theorem dummyAfter_append {b : Bool} {xs ys : List Joint} : dummyAfter b (xs ++ ys) = dummyAfter (dummyAfter b xs) ys := by
  induction xs generalizing b with
  | nil => rfl
  | cons j js ih => simp only [List.cons_append, dummyAfter]; rw [ih]

theorem kept_of_step {i : Nat} {j j' : Joint} (h : LoopStep agents draws last i j j') : Kept agents j j' := by
  unfold LoopStep at h
  split at h
  · exact Or.inl h
  · cases hd : (draws i).del with
    | true => rw [hd, if_pos rfl] at h; exact Or.inr (Or.inr h)
    | false => rw [hd, if_neg (by simp)] at h; exact Or.inr (Or.inl h)

theorem oneDummy_mem {name : String} {j j' : Joint} (h : OneDummy agents j j' name) : ∃ ps, Slot.call name ps ∈ j' := by
  obtain ⟨k, g, hk, _, rfl⟩ := h
  have hlt := (List.getElem?_eq_some_iff.mp hk).1
  exact ⟨[g], List.mem_iff_getElem?.mpr ⟨k, by simp [hlt]⟩⟩

/-- **C97.** With a name for every agent, the insertion succeeds for all plans and all draws; the plan
keeps its length and each joint action is kept or has one idle agent perform a dummy action; with no
dummy goal the last joint action is kept; the returned list is a sublist of the changed plan. -/
theorem C97_insertion (plan : List Joint) (agents : List String) (hl : ∀ j ∈ plan, j.length ≤ agents.length)
    (inGoal : Bool) (pick : Nat → Nat) (draws : Nat → Draw) :
    ∃ p q : List Joint, insertDummy plan agents inGoal pick draws = .ok (p, q) ∧ p.length = plan.length ∧
      (∀ (n : Nat) (j : Joint), plan[n]? = some j → ∃ j' : Joint, p[n]? = some j' ∧ Kept agents j j') ∧
      (inGoal = false → p.getLast? = plan.getLast?) ∧
      (inGoal = true → (∀ j ∈ plan, Slot.nop ∉ j) → p = plan) ∧
      (inGoal = true → (∃ j ∈ plan, Slot.nop ∈ j) → NoDummy plan → ∀ b, dummyAfter b p = true) ∧
      q.Sublist p := by
  unfold insertDummy
  cases inGoal with
  | false =>
    rw [if_neg (by simp)]
    obtain ⟨p, q, h1, h2, h3, h4, _⟩ := loop_spec (agents := agents) (draws := draws) (last := plan.length - 1) (i := 0) hl
    refine ⟨p, q, h1, h2, ?_, ?_, by simp, by simp, h4⟩
    · intro n j hj
      obtain ⟨j', a, b⟩ := h3 n j hj
      exact ⟨j', a, kept_of_step b⟩
    · intro _
      rw [List.getLast?_eq_getElem?, List.getLast?_eq_getElem?, h2]
      cases hj : plan[plan.length - 1]? with
      | none =>
        rw [List.getElem?_eq_none_iff] at hj ⊢
        omega
      | some j =>
        obtain ⟨j', a, b⟩ := h3 _ j hj
        unfold LoopStep at b
        rw [if_pos (Or.inl (by omega))] at b
        rw [a, b]
  | true =>
    rw [if_pos rfl]
    rcases goalStep_spec (agents := agents) (pick := pick) (i := plan.length - 1) (rev := plan.reverse) (by simp only [List.length_reverse]; omega)
      (fun j hj => hl j (by simpa using hj)) with ⟨g1, g2⟩ | ⟨pre, j, post, j', e, g1, g2, g3, g4⟩
    · rw [g2]
      simp only [Option.getD_none, List.reverse_reverse]
      obtain ⟨p, q, h1, h2, h3, h4, _⟩ := loop_spec (agents := agents) (draws := draws) (last := plan.length - 1) (i := 0) hl
      refine ⟨p, q, h1, h2, ?_, by simp, ?_, ?_, h4⟩
      · intro n j hj
        obtain ⟨j', a, b⟩ := h3 n j hj
        exact ⟨j', a, kept_of_step b⟩
      · intro _ hn
        apply List.ext_getElem? 
        intro n
        cases hj : plan[n]? with
        | none => rw [List.getElem?_eq_none_iff] at hj ⊢; omega
        | some j =>
          obtain ⟨j', a, b⟩ := h3 n j hj
          unfold LoopStep at b
          rw [if_pos (Or.inr (Or.inr (hn j (List.mem_of_getElem? hj))))] at b
          rw [a, b]
      · rintro _ ⟨j, hj, hn⟩
        exact absurd hn (g1 j (by simpa using hj))
    · have ep : plan = post.reverse ++ j :: pre.reverse := by
        have := congrArg List.reverse e
        simpa using this
      have hlast : plan.length - 1 - pre.length = post.reverse.length := by rw [ep]; simp
      rw [g4]
      simp only [Option.getD_some, hlast]
      have erev : (pre ++ j' :: post).reverse = post.reverse ++ j' :: pre.reverse := by simp
      rw [erev]
      have hset : j'.length = j.length := by
        obtain ⟨k, g, _, _, rfl⟩ := g3; simp
      have hl' : ∀ x ∈ post.reverse ++ j' :: pre.reverse, x.length ≤ agents.length := by
        intro x hx
        rcases List.mem_append.mp hx with hx | hx
        · exact hl x (by rw [ep]; exact List.mem_append_left _ hx)
        · rcases List.mem_cons.mp hx with rfl | hx
          · rw [hset]; exact hl j (by rw [ep]; simp)
          · exact hl x (by rw [ep]; exact List.mem_append_right _ (List.mem_cons_of_mem _ hx))
      obtain ⟨p, q, h1, h2, h3, h4, _⟩ := loop_spec (agents := agents) (draws := draws) (last := post.reverse.length) (i := 0) hl'
      have hplen : p.length = plan.length := by rw [h2, ep]; simp
      have late : ∀ n x, post.reverse.length ≤ n → (post.reverse ++ j' :: pre.reverse)[n]? = some x → p[n]? = some x := by
        intro n x hn hx
        obtain ⟨x', a, b⟩ := h3 n x hx
        unfold LoopStep at b
        rw [if_pos (Or.inl (by omega))] at b
        rw [a, b]
      refine ⟨p, q, h1, hplen, ?_, by simp, ?_, ?_, h4⟩
      · intro n x hx
        rw [ep] at hx
        rcases Nat.lt_trichotomy n post.reverse.length with hlt | heq | hgt
        · rw [List.getElem?_append_left hlt] at hx
          obtain ⟨x', a, b⟩ := h3 n x (by rw [List.getElem?_append_left hlt]; exact hx)
          exact ⟨x', a, kept_of_step b⟩
        · rw [List.getElem?_append_right (by omega)] at hx
          have e0 : n - post.reverse.length = 0 := by omega
          rw [e0] at hx
          simp only [List.getElem?_cons_zero, Option.some.injEq] at hx
          subst hx
          refine ⟨j', late n j' (by omega) ?_, Or.inr (Or.inl g3)⟩
          rw [List.getElem?_append_right (by omega), e0]; rfl
        · rw [List.getElem?_append_right (by omega)] at hx
          obtain ⟨m, hm⟩ : ∃ m, n - post.reverse.length = m + 1 := ⟨n - post.reverse.length - 1, by omega⟩
          rw [hm, List.getElem?_cons_succ] at hx
          refine ⟨x, late n x (by omega) ?_, Or.inl rfl⟩
          rw [List.getElem?_append_right (by omega), hm, List.getElem?_cons_succ]; exact hx
      · intro _ hn
        exact absurd g2 (hn j (by rw [ep]; simp))
      · intro _ _ hnd b
        have hp : p = p.take post.reverse.length ++ (j' :: pre.reverse) := by
          apply List.ext_getElem?
          intro n
          by_cases hn : n < post.reverse.length
          · have : n < (p.take post.reverse.length).length := by
              rw [List.length_take, hplen, ep]; simp at hn ⊢; omega
            rw [List.getElem?_append_left this, List.getElem?_take_of_lt hn]
          · have htl : (p.take post.reverse.length).length = post.reverse.length := by
              rw [List.length_take, hplen, ep]; simp
            rw [List.getElem?_append_right (by omega), htl]
            have hsplit : (post.reverse ++ j' :: pre.reverse)[n]? = (j' :: pre.reverse)[n - post.reverse.length]? :=
              List.getElem?_append_right (by omega)
            cases hx : (j' :: pre.reverse)[n - post.reverse.length]? with
            | some x => exact late n x (by omega) (by rw [hsplit, hx])
            | none =>
              rw [List.getElem?_eq_none_iff] at hx ⊢
              rw [h2]; simp at hx ⊢; omega
        rw [hp, dummyAfter_append]
        show dummyAfter _ (j' :: pre.reverse) = true
        unfold dummyAfter
        rw [if_pos (oneDummy_mem g3), dummyAfter_noDummy]
        intro x hx
        exact hnd x (by rw [ep]; exact List.mem_append_right _ (List.mem_cons_of_mem _ hx))

/-- C97: without the dummy goal, every draw: exactly the drawn joint actions before the last with an idle
agent are changed, and the returned list holds exactly these and the last. -/
theorem C97_drawn (plan : List Joint) (agents : List String) (hl : ∀ j ∈ plan, j.length ≤ agents.length)
    (pick : Nat → Nat) (draws : Nat → Draw) :
    ∃ p q : List Joint, insertDummy plan agents false pick draws = .ok (p, q) ∧ p.length = plan.length ∧
      (∀ (n : Nat) (j : Joint), plan[n]? = some j → ∃ j' : Joint, p[n]? = some j' ∧
        if n + 1 < plan.length ∧ (draws n).add = true ∧ Slot.nop ∈ j
        then OneDummy agents j j' (if (draws n).del then delName else addName) else j' = j) ∧
      q = ((p.zip plan).zipIdx).filterMap (fun x =>
        if x.2 + 1 = plan.length ∨ ((draws x.2).add = true ∧ Slot.nop ∈ x.1.2) then some x.1.1 else none) := by
  unfold insertDummy
  rw [if_neg (by simp)]
  obtain ⟨p, q, h1, h2, h3, _, h5⟩ := loop_spec (agents := agents) (draws := draws) (last := plan.length - 1) (i := 0) hl
  refine ⟨p, q, h1, h2, ?_, ?_⟩
  · intro n j hj
    obtain ⟨j', a, b⟩ := h3 n j hj
    refine ⟨j', a, ?_⟩
    unfold LoopStep at b
    rw [Nat.zero_add] at b
    by_cases c : n + 1 < plan.length ∧ (draws n).add = true ∧ Slot.nop ∈ j
    · rw [if_pos c]
      rw [if_neg (by simp [c.2.1, c.2.2]; omega)] at b
      exact b
    · rw [if_neg c]
      rw [if_pos] at b
      · exact b
      · by_contra hc
        push Not at hc
        exact c ⟨by omega, by simpa using hc.2.1, hc.2.2⟩
  · rw [h5]
    apply List.filterMap_congr
    intro x hx
    have hlt : x.2 < plan.length := by
      have := List.snd_lt_of_mem_zipIdx hx
      simp at this; omega
    have : (plan.length - 1 ≤ x.2) = (x.2 + 1 = plan.length) := propext ⟨by omega, by omega⟩
    simp only [this]

/-- C97: the returned list need not be the changed plan: joint actions are missing from it. -/
theorem C97_limit_returned : ∃ plan p q, insertDummy plan ["a"] false (fun _ => 0) (fun _ => ⟨false, false, 0⟩) = .ok (p, q) ∧
    p = plan ∧ q.length < plan.length :=
  ⟨[[.call "move" ["x"]], [.call "move" ["y"]]], _, _, rfl, rfl, by decide⟩

/-- A plan of two agents with a dummy goal: the last free place is in the second joint action. -/
example : insertDummy [[.nop, .call "m" ["b"]], [.call "m" ["a"], .nop], [.call "m" ["a"], .call "m" ["b"]]] ["a", "b"] true
    (fun _ => 0) (fun _ => ⟨true, true, 0⟩) =
    .ok ([[.call delName ["a"], .call "m" ["b"]], [.call "m" ["a"], .call addName ["b"]], [.call "m" ["a"], .call "m" ["b"]]],
      [[.call delName ["a"], .call "m" ["b"]], [.call "m" ["a"], .call addName ["b"]], [.call "m" ["a"], .call "m" ["b"]]]) := by
  decide
example : NoDummy [[.nop, .call "m" ["b"]], [.call "m" ["a"], .nop], [.call "m" ["a"], .call "m" ["b"]]] := by
  intro j hj ps
  simp only [List.mem_cons, List.not_mem_nil, or_false] at hj
  rcases hj with rfl | rfl | rfl <;> simp [addName, delName]
/-- An agent without a name. -/
example : insertDummy [[.nop, .nop]] ["a"] true (fun _ => 1) (fun _ => ⟨true, true, 0⟩) = .error .indexError := by decide

end Dummy
end Props

import Verif.Model.RandomWalk
import Verif.Spec.Walk
import Verif.Props.Core

/-! C96: random walks. -/
namespace Props
open Model Spec
namespace Walk
open Model.Walk

variable {S O : Type} {M : Ops S O} {bad : Nat → Bool} {queue : Nat → List O} {G : List O}

/-- What the pops give: an element; the test holds for it, or for no element. -/
theorem popUntil_spec {p : O → Bool} {l : List O} :
    (popUntil p l = none ↔ l = []) ∧
    ∀ o, popUntil p l = some o → o ∈ l ∧ (p o = true ∨ ∀ x ∈ l, p x = false) := by
  induction l with
  | nil => simp [popUntil]
  | cons a l ih =>
    cases l with
    | nil =>
      refine ⟨by simp [popUntil], ?_⟩
      intro o h
      simp only [popUntil, Option.some.injEq] at h
      subst h
      cases hp : p a
      · exact ⟨by simp, Or.inr (by simp [hp])⟩
      · exact ⟨by simp, Or.inl rfl⟩
    | cons b r =>
      unfold popUntil
      by_cases hp : p a = true
      · rw [if_pos hp]
        refine ⟨by simp, ?_⟩
        intro o h
        simp only [Option.some.injEq] at h; subst h
        exact ⟨by simp, Or.inl hp⟩
      · rw [if_neg hp]
        refine ⟨by rw [ih.1]; simp, ?_⟩
        intro o h
        obtain ⟨h1, h2⟩ := ih.2 o h
        refine ⟨List.mem_cons_of_mem _ h1, h2.imp_right fun k x hx => ?_⟩
        rcases List.mem_cons.mp hx with rfl | hx
        · simpa using hp
        · exact k x hx

/-- What one recorded step may be. -/
def StepOK (M : Ops S O) (G : List O) (t : Triplet S O) : Prop :=
  t.op ∈ G ∧ ((M.app t.op t.prev = true ∧ t.next = M.next t.op t.prev) ∨
    (t.next = t.prev ∧ (M.app t.op t.prev = false ∨ ∀ o ∈ G, M.app o t.prev = true)))

theorem selectBad_spec (hq : ∀ o, o ∈ G ↔ o ∈ queue 0) {s : S} :
    (selectBad M s (queue 0) = .error .indexError ↔ G = []) ∧
    ∀ r, selectBad M s (queue 0) = .ok r → StepOK M G ⟨s, r.1, r.2⟩ := by
  have hG : queue 0 = [] ↔ G = [] := by
    simp only [List.eq_nil_iff_forall_not_mem, hq]
  unfold selectBad
  obtain ⟨h1, h2⟩ := popUntil_spec (p := fun o => !M.app o s) (l := (queue 0).reverse)
  cases h : popUntil (fun o => !M.app o s) (queue 0).reverse with
  | none => 
    rw [h1] at h
    simp only [List.reverse_eq_nil_iff] at h
    simp [← hG, h]
  | some o =>
    obtain ⟨k1, k2⟩ := h2 o h
    constructor
    · constructor
      · intro k; cases k
      · intro k; rw [hG.mpr k] at h; simp [popUntil] at h
    · intro r hr
      have := Except.ok.inj hr; subst this
      refine ⟨(hq o).mpr (by simpa using k1), Or.inr ⟨rfl, ?_⟩⟩
      rcases k2 with k2 | k2
      · left; simpa using k2
      · right; intro x hx
        have := k2 x (by simpa using (hq x).mp hx)
        simpa using this

theorem selectGood_spec (hq : ∀ o, o ∈ G ↔ o ∈ queue 0) {s : S} :
    (selectGood M s (queue 0) = .error .indexError ↔ G = []) ∧
    (selectGood M s (queue 0) = .error .valueError → ∀ o ∈ G, M.app o s = false) ∧
    (∀ e, selectGood M s (queue 0) = .error e → e = .indexError ∨ e = .valueError) ∧
    ∀ r, selectGood M s (queue 0) = .ok r → StepOK M G ⟨s, r.1, r.2⟩ := by
  have hG : queue 0 = [] ↔ G = [] := by
    simp only [List.eq_nil_iff_forall_not_mem, hq]
  unfold selectGood
  obtain ⟨h1, h2⟩ := popUntil_spec (p := fun o => M.app o s) (l := (queue 0).reverse)
  cases h : popUntil (fun o => M.app o s) (queue 0).reverse with
  | none => 
    rw [h1] at h
    simp only [List.reverse_eq_nil_iff] at h
    simp [← hG, h]
  | some o =>
    obtain ⟨k1, k2⟩ := h2 o h
    have hne : G ≠ [] := by intro k; rw [hG.mpr k] at h; simp [popUntil] at h
    simp only
    by_cases hp : M.app o s = true
    · rw [if_pos hp]
      refine ⟨⟨(by intro k; cases k), fun k => absurd k hne⟩, (by intro k; cases k), (by intro e k; cases k), ?_⟩
      intro r hr
      have := Except.ok.inj hr; subst this
      exact ⟨(hq o).mpr (by simpa using k1), Or.inl ⟨hp, rfl⟩⟩
    · rw [if_neg hp]
      refine ⟨⟨(by intro k; cases k), fun k => absurd k hne⟩, fun _ x hx => ?_, (by intro e k; right; exact (Except.error.inj k).symm),
        (by intro r k; cases k)⟩
      rcases k2 with k2 | k2
      · exact absurd k2 hp
      · exact k2 x (by simpa using (hq x).mp hx)

theorem walk_spec (hq : ∀ i o, o ∈ G ↔ o ∈ queue i) (hG : G ≠ []) (fuel i : Nat) (s : S) :
    ∃ ts, walk M bad queue fuel i s = .ok ts ∧ ts.length ≤ fuel ∧ FollowsFrom Triplet.prev Triplet.next s ts ∧
      (∀ t ∈ ts, StepOK M G t) ∧
      (ts.length < fuel → ∀ o ∈ G, M.app o (endState Triplet.next s ts) = false) := by
  induction fuel generalizing i s with
  | zero => exact ⟨[], rfl, le_refl _, trivial, by simp, by simp⟩
  | succ n ih =>
    have step : ∀ r : O × S, StepOK M G ⟨s, r.1, r.2⟩ →
        ∃ ts, walk M bad queue n (i + 1) r.2 = .ok ts ∧ (Triplet.mk s r.1 r.2 :: ts).length ≤ n + 1 ∧
          FollowsFrom Triplet.prev Triplet.next s (Triplet.mk s r.1 r.2 :: ts) ∧
          (∀ t ∈ Triplet.mk s r.1 r.2 :: ts, StepOK M G t) ∧
          ((Triplet.mk s r.1 r.2 :: ts).length < n + 1 →
            ∀ o ∈ G, M.app o (endState Triplet.next s (Triplet.mk s r.1 r.2 :: ts)) = false) := by
      intro r hr
      obtain ⟨ts, h1, h2, h3, h4, h5⟩ := ih (i + 1) r.2
      refine ⟨ts, h1, by simpa using h2, ⟨rfl, h3⟩, ?_, ?_⟩
      · intro t ht
        rcases List.mem_cons.mp ht with rfl | ht
        · exact hr
        · exact h4 t ht
      · intro hl o ho
        have := h5 (by simpa using hl) o ho
        have e : endState Triplet.next s (Triplet.mk s r.1 r.2 :: ts) = endState Triplet.next r.2 ts := by
          cases ts with
          | nil => rfl
          | cons a as =>
            unfold endState
            rw [List.getLast?_cons_cons, List.getLast?_eq_getLast_of_ne_nil (List.cons_ne_nil a as)]; rfl
        rw [e]; exact this
    unfold walk
    have hqi : ∀ o, o ∈ G ↔ o ∈ (fun _ => queue i) 0 := hq i
    by_cases hb : bad i = true
    · rw [if_pos hb]
      obtain ⟨b1, b2⟩ := selectBad_spec (M := M) (queue := fun _ => queue i) hqi (s := s)
      cases h : selectBad M s (queue i) with
      | error e =>
        have : e = .indexError := by
          unfold selectBad at h
          split at h
          · exact (Except.error.inj h).symm
          · cases h
        subst this
        exact absurd (b1.mp h) hG
      | ok r =>
        obtain ⟨ts, h1, hrest⟩ := step r (b2 r h)
        simp only [h1]
        exact ⟨_, rfl, hrest⟩
    · rw [if_neg hb]
      obtain ⟨g1, g2, g3, g4⟩ := selectGood_spec (M := M) (queue := fun _ => queue i) hqi (s := s)
      cases h : selectGood M s (queue i) with
      | error e =>
        rcases g3 e h with rfl | rfl
        · exact absurd (g1.mp h) hG
        · exact ⟨[], rfl, by simp, trivial, by simp, fun _ o ho => g2 h o ho⟩
      | ok r =>
        obtain ⟨ts, h1, hrest⟩ := step r (g4 r h)
        simp only [h1]
        exact ⟨_, rfl, hrest⟩

/-- **C96.** For all coins and all shuffles of a non-empty set of grounded actions, the walk returns at
most the maximum number of steps; it starts in the initial state and each step starts where the
previous ended; a step is a true transition of an applicable action, or leaves the state unchanged and
names an inapplicable action, or, if every action is applicable there, an applicable one; the walk
stops early only where no action is applicable; the plan lists the actions of the steps. -/
theorem C96_random_walk (hq : ∀ i o, o ∈ G ↔ o ∈ queue i) (hG : G ≠ []) (s0 : S) (maxSteps : Nat) :
    ∃ ts plan, createRandomPlan M bad queue s0 maxSteps = .ok (ts, plan) ∧ plan = ts.map Triplet.op ∧
      ts.length ≤ maxSteps ∧ FollowsFrom Triplet.prev Triplet.next s0 ts ∧
      (∀ t ∈ ts, t.op ∈ G ∧ ((M.app t.op t.prev = true ∧ t.next = M.next t.op t.prev) ∨
        (t.next = t.prev ∧ (M.app t.op t.prev = false ∨ ∀ o ∈ G, M.app o t.prev = true)))) ∧
      (ts.length < maxSteps → ∀ o ∈ G, M.app o (endState Triplet.next s0 ts) = false) := by
  obtain ⟨ts, h1, h2, h3, h4, h5⟩ := walk_spec (M := M) (bad := bad) hq hG maxSteps 0 s0
  refine ⟨ts, ts.map Triplet.op, ?_, rfl, h2, h3, h4, h5⟩
  unfold createRandomPlan
  rw [h1]

/-- C96: without grounded actions the first step raises `IndexError`. -/
theorem C96_no_actions (hq : ∀ i, queue i = []) (s0 : S) (n : Nat) :
    createRandomPlan M bad queue s0 (n + 1) = .error .indexError := by
  unfold createRandomPlan walk selectBad selectGood
  rw [hq]
  cases bad 0 <;> rfl

/-- C96: the recorded action may be applicable and yet recorded as changing nothing. -/
theorem C96_limit_false_step : ∃ (M : Ops Bool Unit) (bad : Nat → Bool) (queue : Nat → List Unit) (ts : List (Triplet Bool Unit)) (plan : List Unit),
    createRandomPlan M bad queue false 1 = .ok (ts, plan) ∧
    ∃ t ∈ ts, M.app t.op t.prev = true ∧ t.next ≠ M.next t.op t.prev :=
  ⟨⟨fun _ _ => true, fun _ s => !s⟩, fun _ => true, fun _ => [()], _, _, rfl, _, List.mem_cons_self, rfl, by simp⟩

/-- A walk with two actions, one applicable at a time. -/
example : ∃ ts plan, createRandomPlan (⟨fun o s => o == s, fun _ s => !s⟩ : Ops Bool Bool) (fun i => i == 1)
    (fun _ => [true, false]) true 3 = .ok (ts, plan) ∧ plan = [true, true, false] := ⟨_, _, rfl, rfl⟩
example : ∀ (i : Nat) (o : Bool), o ∈ [false, true] ↔ o ∈ (fun _ : Nat => [true, false]) i := by
  intro _ o; cases o <;> simp

/-- C96: the actions walked over are the type-correct calls all of whose numeric fluents are assigned in
the initial state. -/
theorem C96_legal_actions (D : Domain) (objs : Sig) (pre eff : String × List String → Finset String) (initial : Finset String)
    (a : String) (args : List String) :
    (a, args) ∈ legalActions D objs pre eff initial ↔
      (a ∈ D.names ∧ List.Forall₂ (fun x (d : String × PType) => ∃ t, (x, t) ∈ objs ++ D.consts ∧ t.isSub d.2 = true) args (D.act a).sig) ∧
      (∀ f, f ∈ pre (a, args) ∨ f ∈ eff (a, args) → f ∈ initial) := by
  unfold legalActions
  rw [Finset.mem_filter, C20_grounded_actions]
  constructor
  · rintro ⟨h1, h2, h3⟩
    exact ⟨h1, fun f hf => hf.elim (fun k => h2 k) (fun k => h3 k)⟩
  · rintro ⟨h1, h2⟩
    exact ⟨h1, fun f hf => h2 f (Or.inl hf), fun f hf => h2 f (Or.inr hf)⟩

end Walk
end Props

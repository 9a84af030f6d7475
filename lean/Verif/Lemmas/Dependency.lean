import Verif.Model.Dependency
import Verif.Lemmas.Logic

/-! Facts about dependency sets. -/
namespace Model
open Spec

/-- The plain implementation: append the operand. -/
def plainAdd : Cond → Cond → Cond
  | .node op ks, c => .node op (ks ++ [c])
  | .lit l, _ => .lit l

theorem evalAll_append (v : Lit → Prop) (xs ys : List Cond) :
    Cond.evalAll v (xs ++ ys) ↔ Cond.evalAll v xs ∧ Cond.evalAll v ys := by
  induction xs with
  | nil => simp [Cond.evalAll]
  | cons x xs ih => simp [Cond.evalAll, ih, and_assoc]

theorem evalAny_append (v : Lit → Prop) (xs ys : List Cond) :
    Cond.evalAny v (xs ++ ys) ↔ Cond.evalAny v xs ∨ Cond.evalAny v ys := by
  induction xs with
  | nil => simp [Cond.evalAny]
  | cons x xs ih => simp [Cond.evalAny, ih, or_assoc]

theorem plainAdd_ok : AddOK plainAdd := by
  intro op ks c
  refine ⟨ks ++ [c], rfl, fun v _ => ?_⟩
  cases op
  · simp [Cond.eval, evalAll_append, Cond.evalAll]
  · simp [Cond.eval, evalAny_append, Cond.evalAny]

variable {add : Cond → Cond → Cond} {ord : LitOrd}

theorem respects_of {v : Lit → Prop} (hv : Valuation v) : Respects litOps (fun _ => True) v :=
  fun l _ => hv l

theorem addOK_and (hadd : AddOK add) {v : Lit → Prop} (hv : Valuation v) (ks : List Cond) (c : Cond) :
    (∃ ks', add (.node .and ks) c = .node .and ks') ∧
    (Cond.eval v (add (.node .and ks) c) ↔ Cond.eval v (.node .and ks) ∧ Cond.eval v c) := by
  obtain ⟨ks', h1, h2⟩ := hadd .and ks c
  exact ⟨⟨ks', h1⟩, by rw [h1]; exact h2 v hv⟩

theorem addOK_or (hadd : AddOK add) {v : Lit → Prop} (hv : Valuation v) (ks : List Cond) (c : Cond) :
    (∃ ks', add (.node .or ks) c = .node .or ks') ∧
    (Cond.eval v (add (.node .or ks) c) ↔ Cond.eval v (.node .or ks) ∨ Cond.eval v c) := by
  obtain ⟨ks', h1, h2⟩ := hadd .or ks c
  exact ⟨⟨ks', h1⟩, by rw [h1]; exact h2 v hv⟩

theorem foldAdd_and (hadd : AddOK add) {v : Lit → Prop} (hv : Valuation v) {β : Type} (f : β → Cond) (l : List β)
    (ks : List Cond) :
    ∃ ks', l.foldl (fun c x => add c (f x)) (.node .and ks) = .node .and ks' ∧
      (Cond.eval v (.node .and ks') ↔ Cond.eval v (.node .and ks) ∧ ∀ x ∈ l, Cond.eval v (f x)) := by
  induction l generalizing ks with
  | nil => exact ⟨ks, rfl, by simp⟩
  | cons x l ih =>
    obtain ⟨⟨k1, h1⟩, h2⟩ := addOK_and hadd hv ks (f x)
    obtain ⟨k2, h3, h4⟩ := ih k1
    refine ⟨k2, by rw [List.foldl_cons, h1, h3], ?_⟩
    rw [h1] at h2
    rw [h4, h2]; simp [and_assoc]

theorem foldAdd_or (hadd : AddOK add) {v : Lit → Prop} (hv : Valuation v) {β : Type} (f : β → Cond) (l : List β)
    (ks : List Cond) :
    ∃ ks', l.foldl (fun c x => add c (f x)) (.node .or ks) = .node .or ks' ∧
      (Cond.eval v (.node .or ks') ↔ Cond.eval v (.node .or ks) ∨ ∃ x ∈ l, Cond.eval v (f x)) := by
  induction l generalizing ks with
  | nil => exact ⟨ks, rfl, by simp⟩
  | cons x l ih =>
    obtain ⟨⟨k1, h1⟩, h2⟩ := addOK_or hadd hv ks (f x)
    obtain ⟨k2, h3, h4⟩ := ih k1
    refine ⟨k2, by rw [List.foldl_cons, h1, h3], ?_⟩
    rw [h1] at h2
    rw [h4, h2]; simp [or_assoc]

theorem nodeOf_and (hadd : AddOK add) {v : Lit → Prop} (hv : Valuation v) (l : List Lit) :
    Cond.eval v (nodeOf add .and l) ↔ ∀ x ∈ l, v x := by
  obtain ⟨ks', h1, h2⟩ := foldAdd_and hadd hv Cond.lit l []
  unfold nodeOf; rw [h1, h2]; simp [Cond.eval, Cond.evalAll]

theorem nodeOf_or (hadd : AddOK add) {v : Lit → Prop} (hv : Valuation v) (l : List Lit) :
    Cond.eval v (nodeOf add .or l) ↔ ∃ x ∈ l, v x := by
  obtain ⟨ks', h1, h2⟩ := foldAdd_or hadd hv Cond.lit l []
  unfold nodeOf; rw [h1, h2]; simp [Cond.eval, Cond.evalAny]

theorem clauseCond_eval (hadd : AddOK add) (ho : EnumOK ord) {v : Lit → Prop} (hv : Valuation v) (c : Finset Lit) :
    Cond.eval v (clauseCond add ord c) ↔ ∃ x ∈ c, v x := by
  have hmem : (∃ x ∈ ord c, v x) ↔ ∃ x ∈ c, v x := by simp only [ho c]
  rw [← hmem]
  unfold clauseCond
  split
  · rename_i l h; rw [h]; simp [Cond.eval]
  · exact nodeOf_or hadd hv _

theorem negatedCond_eval (hadd : AddOK add) (ho : EnumOK ord) {v : Lit → Prop} (hv : Valuation v)
    (cl : List (Finset Lit)) : Cond.eval v (negatedCond add ord cl) ↔ ∀ c ∈ cl, ∃ x ∈ c, v x := by
  unfold negatedCond
  split
  · rw [clauseCond_eval hadd ho hv]; simp
  · obtain ⟨ks', h1, h2⟩ := foldAdd_and hadd hv (clauseCond add ord) cl []
    rw [h1, h2]
    simp only [Cond.eval, Cond.evalAll, true_and]
    exact forall_congr' fun c => imp_congr_right fun _ => clauseCond_eval hadd ho hv c

theorem litOperands_eval (v : Lit → Prop) (ks : List Cond) {l : Lit} (h : l ∈ litOperands ks) (hl : v l) :
    Cond.evalAny v ks := by
  induction ks with
  | nil => simp [litOperands] at h
  | cons k ks ih =>
    cases k with
    | lit x =>
      simp only [litOperands, List.mem_cons] at h
      rcases h with rfl | h
      · exact Or.inl hl
      · exact Or.inr (ih h)
    | node op xs => exact Or.inr (ih h)

/-- A disjunction reported to be a tautology is one; the check never fails. -/
theorem postProcess (c : Cond) : ∃ b, postProcessTrue c = .ok b ∧
    (b = true → ∀ v, Valuation v → Cond.eval v c) := by
  unfold postProcessTrue
  split
  · rename_i ks
    rw [checkCompl_eq litOps_ok _ (fun _ _ => trivial)]
    refine ⟨_, rfl, fun h v hv => ?_⟩
    obtain ⟨x, hx, hf⟩ := of_decide_eq_true h
    by_cases hvx : v x
    · exact litOperands_eval v ks hx hvx
    · exact litOperands_eval v ks hf ((hv x).mpr hvx)
  · exact ⟨false, rfl, by simp⟩

/-! ### Minimisation loop -/

/-- No candidate antecedent holds. -/
def NoCand (v : Lit → Prop) (cands : List (Finset Lit)) : Prop := ∀ A ∈ cands, ¬ ∀ x ∈ A, v x

theorem minimizeCnf_nonempty (ho : EnumOK ord) {cl r : List (Finset Lit)} {pre : Finset Lit}
    (h : minimizeCnf litOps ord cl pre = .ok r) : ∀ c ∈ r, c ≠ ∅ := by
  rw [minimizeCnf_eq litOps_ok ho _ _ (fun _ _ _ _ => trivial) (fun _ _ => trivial)] at h
  split at h
  · simp at h
  · have hk : ∀ c ∈ keptUnits cl pre, c ≠ ∅ := by
      intro c hc he
      have := (List.mem_filter.mp hc).2
      simp [he] at this
    generalize keptUnits cl pre = acc at hk h
    generalize pre ∪ unionAll _ = used at h
    generalize List.filter _ cl = cs at h
    induction cs generalizing acc with
    | nil => simp only [List.foldlM_nil, pure, Except.pure, Except.ok.injEq] at h; subst h; exact hk
    | cons c cs ih =>
      simp only [List.foldlM_cons, bind, Except.bind] at h
      split at h
      · simp at h
      · rename_i r' hr'
        refine ih r' ?_ h
        unfold pureStep at hr'
        split at hr'
        · simp only [Except.ok.injEq] at hr'; subst hr'; exact hk
        · split at hr'
          · simp only [Except.ok.injEq] at hr'; subst hr'; exact hk
          · split at hr'
            · simp at hr'
            · rename_i hne
              simp only [Except.ok.injEq] at hr'; subst hr'
              intro c' hc'
              rcases List.mem_append.mp hc' with hc' | hc'
              · exact hk c' hc'
              · simp only [List.mem_singleton] at hc'; subst hc'; exact hne

theorem minimizeLoop_spec (ho : EnumOK ord) (pre : Finset Lit) (prev : Option Nat) (cl : List (Finset Lit))
    (hne : ∀ c ∈ cl, c ≠ ∅) :
    (∃ r, minimizeLoop ord pre prev cl = .ok r ∧
      match r with
      | .always => ∀ v, Valuation v → (∀ l ∈ pre, v l) → ∀ c ∈ cl, ∃ x ∈ c, v x
      | .never => False
      | .clauses cl' => ∀ v, Valuation v → (∀ l ∈ pre, v l) → ((∀ c ∈ cl', ∃ x ∈ c, v x) ↔ ∀ c ∈ cl, ∃ x ∈ c, v x)) ∨
    (minimizeLoop ord pre prev cl = .error .valueError ∧
      ∀ v, Valuation v → (∀ l ∈ pre, v l) → ¬ ∀ c ∈ cl, ∃ x ∈ c, v x) := by
  fun_induction minimizeLoop ord pre prev cl with
  | case1 prev cl h e hm =>
    right
    -- the exception is a `ValueError` and the clauses are false in every valuation
    have key := fun v hv hp => (minimizeCnf_sound litOps_ok ho cl pre (fun _ _ _ _ => trivial) (fun _ _ => trivial)
      hne v (respects_of hv) hp).2 e hm
    refine ⟨?_, fun v hv hp => (key v hv hp).2⟩
    rw [minimizeCnf_eq litOps_ok ho _ _ (fun _ _ _ _ => trivial) (fun _ _ => trivial)] at hm
    split at hm
    · simp only [Except.error.injEq] at hm; rw [hm]
    · -- the fold only raises `ValueError`
      generalize keptUnits cl pre = acc at hm
      generalize pre ∪ unionAll _ = used at hm
      generalize List.filter _ cl = cs at hm
      induction cs generalizing acc with
      | nil => simp [pure, Except.pure] at hm
      | cons c cs ih =>
        simp only [List.foldlM_cons, bind, Except.bind] at hm
        split at hm
        · rename_i e' he'
          simp only [Except.error.injEq] at hm; subst hm
          unfold pureStep at he'
          split at he'
          · simp at he'
          · split at he'
            · simp at he'
            · split at he'
              · simp only [Except.error.injEq] at he'; rw [he']
              · simp at he'
        · exact ih _ hm
  | case2 prev cl h cl' hm hlen =>
    left
    refine ⟨_, rfl, ?_⟩
    intro v hv hp
    have := (minimizeCnf_sound litOps_ok ho cl pre (fun _ _ _ _ => trivial) (fun _ _ => trivial)
      hne v (respects_of hv) hp).1 cl' hm
    rw [← this]
    rw [List.length_eq_zero_iff.mp hlen]; simp
  | case3 prev cl h cl' hm hlen ih =>
    have hs := fun v hv hp => (minimizeCnf_sound litOps_ok ho cl pre (fun _ _ _ _ => trivial) (fun _ _ => trivial)
      hne v (respects_of hv) hp).1 cl' hm
    rcases ih (minimizeCnf_nonempty ho hm) with ⟨r, h1, h2⟩ | ⟨h1, h2⟩
    · left
      refine ⟨r, h1, ?_⟩
      cases r with
      | always => exact fun v hv hp => (hs v hv hp).mp (h2 v hv hp)
      | never => exact h2
      | clauses c2 => exact fun v hv hp => (h2 v hv hp).trans (hs v hv hp)
    · right
      exact ⟨h1, fun v hv hp => by rw [← hs v hv hp]; exact h2 v hv hp⟩
  | case4 prev cl h => left; exact ⟨_, rfl, fun v _ _ => Iff.rfl⟩

theorem negated_holds {v : Lit → Prop} (hv : Valuation v) (cands : List (Finset Lit)) :
    (∀ c ∈ cands.map (fun c => c.image Lit.neg), ∃ x ∈ c, v x) ↔ NoCand v cands := by
  simp only [List.mem_map, forall_exists_index, and_imp, forall_apply_eq_imp_iff₂, NoCand]
  refine forall_congr' fun A => imp_congr_right fun _ => ?_
  simp only [Finset.mem_image, exists_exists_and_eq_and, hv _, not_forall]
  exact ⟨fun ⟨x, a, b⟩ => ⟨x, a, b⟩, fun ⟨x, a, b⟩ => ⟨x, a, b⟩⟩

theorem negatedMinimized_spec (ho : EnumOK ord) (cands : List (Finset Lit)) (pre : Finset Lit)
    (hne : ∀ c ∈ cands, c ≠ ∅) :
    ∃ r, negatedMinimized ord cands pre = .ok r ∧
      match r with
      | .always => ∀ v, Valuation v → (∀ l ∈ pre, v l) → NoCand v cands
      | .never => ∀ v, Valuation v → (∀ l ∈ pre, v l) → ¬ NoCand v cands
      | .clauses cl => ∀ v, Valuation v → (∀ l ∈ pre, v l) → ((∀ c ∈ cl, ∃ x ∈ c, v x) ↔ NoCand v cands) := by
  have hne' : ∀ c ∈ cands.map (fun c => c.image Lit.neg), c ≠ ∅ := by
    intro c hc
    obtain ⟨A, hA, rfl⟩ := List.mem_map.mp hc
    simpa using hne A hA
  unfold negatedMinimized
  rcases minimizeLoop_spec ho pre none _ hne' with ⟨r, h1, h2⟩ | ⟨h1, h2⟩
  · rw [h1]
    refine ⟨r, rfl, ?_⟩
    cases r with
    | always => exact fun v hv hp => (negated_holds hv cands).mp (h2 v hv hp)
    | never => exact absurd h2 id
    | clauses cl => exact fun v hv hp => (h2 v hv hp).trans (negated_holds hv cands)
  · rw [h1]
    exact ⟨.never, rfl, fun v hv hp h => h2 v hv hp ((negated_holds hv cands).mpr h)⟩

/-- The condition allows the state described by `v` (`None` adds no condition). -/
def Allows (v : Lit → Prop) : Option Cond → Prop
  | none => True
  | some c => Cond.eval v c

/-- Exact meaning of the restrictive precondition. -/
theorem restrictive_spec (hadd : AddOK add) (ho : EnumOK ord) (d : DepSet) (pre : Finset Lit) (literal : Lit)
    (isEffect : Bool) (cands : List (Finset Lit)) (hl : d.possible.lookup literal = some cands)
    (hne : ∀ c ∈ cands, c ≠ ∅) :
    ∃ r, d.restrictive add ord pre literal isEffect = .ok r ∧
      ∀ v, Valuation v → (∀ l ∈ pre, v l) →
        (Allows v r ↔ v literal ∨ NoCand v cands ∨ (isEffect = true ∧ ∀ A ∈ cands, ∀ x ∈ A, v x)) := by
  have hpos : ∀ v : Lit → Prop, (∀ x ∈ unionAll cands, v x) ↔ ∀ A ∈ cands, ∀ x ∈ A, v x := by
    intro v
    constructor
    · intro h A hA x hx; exact h x (mem_unionAll.mpr ⟨A, hA, hx⟩)
    · intro h x hx; obtain ⟨A, hA, hx⟩ := mem_unionAll.mp hx; exact h A hA x hx
  unfold DepSet.restrictive
  by_cases hin : literal ∈ pre
  · simp only [hin, if_true]
    exact ⟨none, rfl, fun v _ hp => by simp [Allows, hp literal hin]⟩
  · simp only [hin, if_false, hl]
    obtain ⟨r, h1, h2⟩ := negatedMinimized_spec ho cands pre hne
    rw [h1]
    simp only [bind, Except.bind]
    cases r with
    | always =>
      exact ⟨none, rfl, fun v hv hp => by simp [Allows, h2 v hv hp]⟩
    | never =>
      simp only at h2
      unfold handleContradicting
      cases isEffect with
      | false =>
        refine ⟨_, rfl, fun v hv hp => ?_⟩
        simp [Allows, Cond.eval, h2 v hv hp]
      | true =>
        simp only [Bool.not_true, Bool.false_eq_true, if_false]
        rw [checkCompl_ord litOps_ok ho _ (fun _ _ => trivial)]
        simp only [bind, Except.bind, decide_eq_true_eq]
        by_cases hcomp : ∃ x ∈ unionAll cands, litOps.flip x ∈ unionAll cands
        · simp only [hcomp, if_true]
          refine ⟨_, rfl, fun v hv hp => ?_⟩
          obtain ⟨x, hx, hf⟩ := hcomp
          simp only [Allows, Cond.eval, h2 v hv hp, false_or, true_and]
          constructor
          · exact Or.inl
          · rintro (h | h)
            · exact h
            · have := (hpos v).mpr h
              exact absurd (this x hx) ((hv x).mp (this _ hf))
        · simp only [hcomp, if_false]
          refine ⟨_, rfl, fun v hv hp => ?_⟩
          obtain ⟨⟨k1, e1⟩, e2⟩ := addOK_or hadd hv [] (.lit literal)
          obtain ⟨⟨k2, e3⟩, e4⟩ := addOK_or hadd hv k1 (nodeOf add .and (ord (unionAll cands)))
          rw [e1] at e2
          simp only [Allows]
          rw [e1, e4, e2, nodeOf_and hadd hv]
          simp only [Cond.eval, Cond.evalAny, false_or, h2 v hv hp, true_and, ho (unionAll cands)]
          exact or_congr Iff.rfl (hpos v)
    | clauses cl =>
      simp only at h2
      have hneg := fun v hv hp => (negatedCond_eval hadd ho (v := v) hv cl).trans (h2 v hv hp)
      cases isEffect with
      | true =>
        simp only [if_true]
        unfold handleEffect
        simp only [bind, Except.bind]
        -- the disjunction before post-processing
        have hc : ∀ v, Valuation v → (∀ l ∈ pre, v l) →
            ∃ ks, (if literal.neg ∈ pre then
                add (add (.node .or []) (nodeOf add .and (ord (unionAll cands)))) (negatedCond add ord cl)
              else add (add (add (.node .or []) (nodeOf add .and (ord (unionAll cands)))) (negatedCond add ord cl))
                (.lit literal)) = .node .or ks ∧
              (Cond.eval v (.node .or ks) ↔ v literal ∨ NoCand v cands ∨ ∀ A ∈ cands, ∀ x ∈ A, v x) := by
          intro v hv hp
          obtain ⟨⟨k1, e1⟩, f1⟩ := addOK_or hadd hv [] (nodeOf add .and (ord (unionAll cands)))
          rw [e1] at f1
          obtain ⟨⟨k2, e2⟩, f2⟩ := addOK_or hadd hv k1 (negatedCond add ord cl)
          rw [e2] at f2
          have base : Cond.eval v (.node .or k2) ↔ (∀ A ∈ cands, ∀ x ∈ A, v x) ∨ NoCand v cands := by
            rw [f2, f1, nodeOf_and hadd hv, hneg v hv hp]
            simp only [Cond.eval, Cond.evalAny, false_or, ho (unionAll cands), hpos v]
          by_cases hn : literal.neg ∈ pre
          · refine ⟨k2, by rw [if_pos hn, e1, e2], ?_⟩
            rw [base]
            have : ¬ v literal := (hv literal).mp (hp _ hn)
            simp only [this, false_or]; exact or_comm
          · obtain ⟨⟨k3, e3⟩, f3⟩ := addOK_or hadd hv k2 (.lit literal)
            refine ⟨k3, by rw [if_neg hn, e1, e2, e3], ?_⟩
            rw [e3] at f3
            rw [f3, base]; simp only [Cond.eval]
            tauto
        obtain ⟨b, hb, hb'⟩ := postProcess (if literal.neg ∈ pre then
                add (add (.node .or []) (nodeOf add .and (ord (unionAll cands)))) (negatedCond add ord cl)
              else add (add (add (.node .or []) (nodeOf add .and (ord (unionAll cands)))) (negatedCond add ord cl))
                (.lit literal))
        rw [hb]
        cases b with
        | true =>
          refine ⟨none, rfl, fun v hv hp => ?_⟩
          obtain ⟨ks, e, f⟩ := hc v hv hp
          have := hb' rfl v hv
          rw [e, f] at this
          simp only [Allows, true_and, true_iff]; exact this
        | false =>
          refine ⟨_, rfl, fun v hv hp => ?_⟩
          obtain ⟨ks, e, f⟩ := hc v hv hp
          simp only [Allows, e, f, true_and]
      | false =>
        simp only [Bool.false_eq_true, if_false, false_and, or_false]
        by_cases hn : literal.neg ∈ pre
        · simp only [hn, if_true]
          refine ⟨_, rfl, fun v hv hp => ?_⟩
          have : ¬ v literal := (hv literal).mp (hp _ hn)
          simp only [Allows, this, false_or]
          exact hneg v hv hp
        · simp only [hn, if_false]
          have hc : ∀ v, Valuation v → (∀ l ∈ pre, v l) →
              (Cond.eval v (add (add (.node .or []) (.lit literal)) (negatedCond add ord cl)) ↔
                v literal ∨ NoCand v cands) := by
            intro v hv hp
            obtain ⟨⟨k1, e1⟩, f1⟩ := addOK_or hadd hv [] (.lit literal)
            rw [e1] at f1
            rw [e1, (addOK_or hadd hv k1 (negatedCond add ord cl)).2, f1, hneg v hv hp]
            simp [Cond.eval, Cond.evalAny]
          obtain ⟨b, hb, hb'⟩ := postProcess (add (add (.node .or []) (.lit literal)) (negatedCond add ord cl))
          rw [hb]
          cases b with
          | true =>
            refine ⟨none, rfl, fun v hv hp => ?_⟩
            have := (hc v hv hp).mp (hb' rfl v hv)
            simp only [Allows, true_iff]; exact this
          | false =>
            refine ⟨_, rfl, fun v hv hp => ?_⟩
            simp only [Allows]; exact hc v hv hp

end Model

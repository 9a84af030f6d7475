import Verif.Model.Stats
import Verif.Spec.Metrics
import Mathlib.Tactic.Ring
import Mathlib.Tactic.Positivity
import Mathlib.Tactic.FieldSimp
import Mathlib.Tactic.Linarith

/-! Lemmas about the evaluation of learned models. -/
namespace Model
open Spec

section
variable {α : Type} [DecidableEq α]

theorem card_inter_add_sdiff (L T : Finset α) : (L ∩ T).card + (L \ T).card = L.card :=
  Finset.card_inter_add_card_sdiff L T

theorem share_nonneg (A B : Finset α) : 0 ≤ share A B := by unfold share; positivity

theorem share_le_one (A B : Finset α) : share A B ≤ 1 := by
  unfold share
  apply div_le_one_of_le₀ _ (by positivity)
  exact_mod_cast Finset.card_le_card Finset.inter_subset_left

theorem share_eq_one {A B : Finset α} (h : A ≠ ∅) : share A B = 1 ↔ A ⊆ B := by
  unfold share
  have hc : (A.card : ℚ) ≠ 0 := by simpa using h
  rw [div_eq_one_iff_eq hc]
  constructor
  · intro e
    have e' : (A ∩ B).card = A.card := by exact_mod_cast e
    exact Finset.inter_eq_left.mp (Finset.eq_of_subset_of_card_le Finset.inter_subset_left e'.ge)
  · intro hs; rw [Finset.inter_eq_left.mpr hs]

theorem precision_nonneg (A B : Finset α) : 0 ≤ Spec.precision A B := by
  unfold Spec.precision; split
  · exact zero_le_one
  · exact share_nonneg _ _
theorem precision_le_one (A B : Finset α) : Spec.precision A B ≤ 1 := by
  unfold Spec.precision; split
  · exact le_refl _
  · exact share_le_one _ _
theorem precision_eq_one (A B : Finset α) : Spec.precision A B = 1 ↔ A ⊆ B := by
  unfold Spec.precision; split
  · rename_i h; simp [h]
  · rename_i h; exact share_eq_one h
theorem recall_eq_precision (A B : Finset α) : Spec.recall A B = Spec.precision B A := rfl

/-- The quotient of the code is the precision. -/
theorem quotient_eq (A B : Finset α) : quotient (A ∩ B).card (A \ B).card = Spec.precision A B := by
  unfold quotient Spec.precision
  have hc := card_inter_add_sdiff A B
  by_cases h : A = ∅
  · subst h; simp
  · have : A.card ≠ 0 := by simpa using h
    rw [if_neg (by omega), if_neg h]
    unfold share
    congr 1
    exact_mod_cast hc

end

theorem synPrecision_eq (L T : Finset Lit) :
    synPrecision L T = if L = ∅ ∧ T ≠ ∅ then 0 else Spec.precision L T := by
  unfold synPrecision numTP numFP Spec.precision share
  by_cases h : L = ∅
  · by_cases h' : T = ∅ <;> simp [h, h']
  · have : L.card ≠ 0 := by simpa using h
    rw [if_neg this, if_neg (fun k => h k.1), if_neg h]
    congr 1
    exact_mod_cast card_inter_add_sdiff L T

theorem synRecall_eq (L T : Finset Lit) : synRecall L T = Spec.recall L T := by
  unfold synRecall numTP numFN Spec.recall share
  by_cases h : T = ∅
  · simp [h]
  · have : T.card ≠ 0 := by simpa using h
    rw [if_neg this, if_neg h]
    by_cases h' : L = ∅
    · simp [h']
    · rw [if_neg (by simpa using h'), Finset.inter_comm L T]
      congr 1
      exact_mod_cast card_inter_add_sdiff T L

theorem disjSum_inter (a b c d : Finset Lit) : tagged a b ∩ tagged c d = tagged (a ∩ c) (b ∩ d) := by
  unfold tagged; ext x; cases x <;> simp

theorem disjSum_sdiff (a b c d : Finset Lit) : tagged a b \ tagged c d = tagged (a \ c) (b \ d) := by
  unfold tagged; ext x; cases x <;> simp

theorem card_tagged (a b : Finset Lit) : (tagged a b).card = a.card + b.card := by unfold tagged; simp

theorem tagged_subset {a b c d : Finset Lit} : tagged a b ⊆ tagged c d ↔ a ⊆ c ∧ b ⊆ d := by
  unfold tagged
  constructor
  · intro h
    exact ⟨fun x hx => by simpa using h (Finset.inl_mem_disjSum.mpr hx), fun x hx => by simpa using h (Finset.inr_mem_disjSum.mpr hx)⟩
  · rintro ⟨h1, h2⟩ x hx
    cases x with
    | inl x => simp at hx ⊢; exact h1 hx
    | inr x => simp at hx ⊢; exact h2 hx

theorem SynCalc.tp_eq (C : SynCalc) (a : String) :
    C.tp a = (tagged (C.pre a) (C.eff a) ∩ tagged (C.gtPre a) (C.gtEff a)).card := by
  rw [disjSum_inter, card_tagged]; rfl
theorem SynCalc.fp_eq (C : SynCalc) (a : String) :
    C.fp a = (tagged (C.pre a) (C.eff a) \ tagged (C.gtPre a) (C.gtEff a)).card := by
  rw [disjSum_sdiff, card_tagged]; rfl
theorem SynCalc.fn_eq (C : SynCalc) (a : String) :
    C.fn a = (tagged (C.gtPre a) (C.gtEff a) \ tagged (C.pre a) (C.eff a)).card := by
  rw [disjSum_sdiff, card_tagged]; rfl

theorem SynCalc.actionPrecision_eq (C : SynCalc) (a : String) :
    C.actionPrecision a = Spec.precision (tagged (C.pre a) (C.eff a)) (tagged (C.gtPre a) (C.gtEff a)) := by
  unfold SynCalc.actionPrecision
  rw [C.tp_eq, C.fp_eq, quotient_eq]
theorem SynCalc.actionRecall_eq (C : SynCalc) (a : String) :
    C.actionRecall a = Spec.recall (tagged (C.pre a) (C.eff a)) (tagged (C.gtPre a) (C.gtEff a)) := by
  unfold SynCalc.actionRecall
  rw [C.tp_eq, C.fn_eq, Finset.inter_comm, quotient_eq]; rfl

/-- All the calls of `add_action_data`, both actions under one name. -/
def SynCalc.addAll (C : SynCalc) (l : List (String × ActModel × ActModel)) : SynCalc :=
  l.foldl (fun C p => C.addAction p.1 p.2.1 p.1 p.2.2) C

theorem SynCalc.addAll_learned (l : List (String × ActModel × ActModel)) (C : SynCalc) :
    (C.addAll l).learned = C.learned ++ l.map Prod.fst := by
  induction l generalizing C with
  | nil => simp [SynCalc.addAll]
  | cons p l ih =>
    unfold SynCalc.addAll at ih ⊢
    rw [List.foldl_cons, ih]; simp [SynCalc.addAction]

theorem SynCalc.addAll_other (l : List (String × ActModel × ActModel)) (C : SynCalc) {a : String} (h : a ∉ l.map Prod.fst) :
    (C.addAll l).pre a = C.pre a ∧ (C.addAll l).gtPre a = C.gtPre a ∧ (C.addAll l).eff a = C.eff a ∧ (C.addAll l).gtEff a = C.gtEff a := by
  induction l generalizing C with
  | nil => exact ⟨rfl, rfl, rfl, rfl⟩
  | cons p l ih =>
    rw [List.map_cons, List.mem_cons, not_or] at h
    have := ih (C.addAction p.1 p.2.1 p.1 p.2.2) h.2
    unfold SynCalc.addAll at this ⊢
    rw [List.foldl_cons]
    obtain ⟨h1, h2, h3, h4⟩ := this
    rw [h1, h2, h3, h4]
    simp [SynCalc.addAction, Function.update_of_ne h.1]

/-- The data of an action is that of its only addition. -/
theorem SynCalc.addAll_get (l : List (String × ActModel × ActModel)) (C : SynCalc) (hnd : (l.map Prod.fst).Nodup)
    {a : String} {x y : ActModel} (h : (a, x, y) ∈ l) :
    (C.addAll l).pre a = x.pre ∧ (C.addAll l).gtPre a = y.pre ∧ (C.addAll l).eff a = x.eff ∧ (C.addAll l).gtEff a = y.eff := by
  induction l generalizing C with
  | nil => simp at h
  | cons p l ih =>
    rw [List.map_cons, List.nodup_cons] at hnd
    rw [List.mem_cons] at h
    rcases h with rfl | h
    · have := SynCalc.addAll_other l (C.addAction a x a y) hnd.1
      unfold SynCalc.addAll at this ⊢
      rw [List.foldl_cons]
      obtain ⟨h1, h2, h3, h4⟩ := this
      rw [h1, h2, h3, h4]
      simp [SynCalc.addAction]
    · exact ih _ hnd.2 h

/-! ### Counters -/

/-- The precision over the counts. -/
theorem counts_bounds (k : Counts) (a : String) {p r : ℚ} (hp : k.precision a = some p) (hr : k.recall a = some r) :
    0 ≤ p ∧ p ≤ 1 ∧ 0 ≤ r ∧ r ≤ 1 := by
  unfold Counts.precision at hp
  unfold Counts.recall at hr
  cases h : k.tp a with
  | none => rw [h] at hp; simp at hp
  | some t =>
    rw [h] at hp hr
    rw [Option.map_some, Option.some.injEq] at hp hr
    subst hp hr
    have key : ∀ f : ℕ, (0 : ℚ) ≤ (t : ℚ) / (t + f) ∧ (t : ℚ) / (t + f) ≤ 1 := fun f =>
      ⟨by positivity, div_le_one_of_le₀ (by have : (0 : ℚ) ≤ f := by positivity
                                            linarith) (by positivity)⟩
    refine ⟨?_, ?_, ?_, ?_⟩
    · split_ifs <;> first | exact zero_le_one | exact le_refl _ | exact (key _).1
    · split_ifs <;> first | exact zero_le_one | exact le_refl _ | exact (key _).2
    · split_ifs <;> first | exact zero_le_one | exact le_refl _ | exact (key _).1
    · split_ifs <;> first | exact zero_le_one | exact le_refl _ | exact (key _).2

theorem add_tp (k : Counts) (a b : String) (t p n : ℕ) :
    (k.add a t p n).tp b = if b = a then some ((k.tp a).getD 0 + t) else k.tp b := by
  unfold Counts.add; dsimp only; rw [Function.update_apply]
theorem add_fp (k : Counts) (a b : String) (t p n : ℕ) :
    (k.add a t p n).fp b = if b = a then k.fp a + p else k.fp b := by
  unfold Counts.add; dsimp only; rw [Function.update_apply]
theorem add_fn (k : Counts) (a b : String) (t p n : ℕ) :
    (k.add a t p n).fn b = if b = a then k.fn a + n else k.fn b := by
  unfold Counts.add; dsimp only; rw [Function.update_apply]

/-- The executions of an action. -/
def runsOf (a : String) (xs : List (State × Call)) : List (State × Call) := xs.filter fun x => x.2.name = a

/-- What the fold counts. -/
theorem preFold_spec (names : List String) (appL appM : State → Call → Bool) (xs : List (State × Call)) (k : Counts) (a : String) :
    let k' := xs.foldl (preAppStep names appL appM) k
    let ys := if a ∈ names then runsOf a xs else []
    (k'.tp a = if ys = [] then k.tp a else some ((k.tp a).getD 0 + ys.countP fun x => appL x.1 x.2 && appM x.1 x.2)) ∧
    k'.fp a = k.fp a + (ys.countP fun x => appL x.1 x.2 && !appM x.1 x.2) ∧
    k'.fn a = k.fn a + (ys.countP fun x => !appL x.1 x.2 && appM x.1 x.2) := by
  induction xs generalizing k with
  | nil => simp [runsOf]
  | cons x xs ih =>
    dsimp only
    rw [List.foldl_cons]
    have := ih (preAppStep names appL appM k x)
    dsimp only at this
    obtain ⟨h1, h2, h3⟩ := this
    rw [h1, h2, h3]
    by_cases ha : a ∈ names
    · rw [if_pos ha, if_pos ha]
      by_cases hx : x.2.name = a
      · have hr : runsOf a (x :: xs) = x :: runsOf a xs := by unfold runsOf; rw [List.filter_cons_of_pos (by simpa using hx)]
        rw [hr]
        have hs : preAppStep names appL appM k x = k.add a (decide (appL x.1 x.2 = appM x.1 x.2 ∧ appL x.1 x.2 = true)).toNat
            (appL x.1 x.2 && !appM x.1 x.2).toNat (!appL x.1 x.2 && appM x.1 x.2).toNat := by
          unfold preAppStep; rw [if_neg (by rw [hx]; exact not_not.mpr ha), hx]
        rw [hs, add_tp, add_fp, add_fn, if_pos rfl, if_pos rfl, if_pos rfl]
        simp only [List.countP_cons]
        refine ⟨?_, ?_, ?_⟩
        · rw [if_neg (List.cons_ne_nil _ _)]
          split_ifs with h0 h0
          all_goals (cases hl : appL x.1 x.2 <;> cases hm : appM x.1 x.2 <;> simp_all <;> try omega)
        · cases appL x.1 x.2 <;> cases appM x.1 x.2 <;> simp [Nat.add_assoc, Nat.add_comm, Nat.add_left_comm]
        · cases appL x.1 x.2 <;> cases appM x.1 x.2 <;> simp [Nat.add_assoc, Nat.add_comm, Nat.add_left_comm]
      · have hr : runsOf a (x :: xs) = runsOf a xs := by unfold runsOf; rw [List.filter_cons_of_neg (by simpa using hx)]
        rw [hr]
        have hs : (preAppStep names appL appM k x).tp a = k.tp a ∧ (preAppStep names appL appM k x).fp a = k.fp a ∧
            (preAppStep names appL appM k x).fn a = k.fn a := by
          unfold preAppStep; split
          · exact ⟨rfl, rfl, rfl⟩
          · dsimp only
            rw [add_tp, add_fp, add_fn, if_neg (Ne.symm hx), if_neg (Ne.symm hx), if_neg (Ne.symm hx)]
            exact ⟨rfl, rfl, rfl⟩
        rw [hs.1, hs.2.1, hs.2.2]
        exact ⟨rfl, rfl, rfl⟩
    · rw [if_neg ha, if_neg ha]
      have hs : (preAppStep names appL appM k x).tp a = k.tp a ∧ (preAppStep names appL appM k x).fp a = k.fp a ∧
            (preAppStep names appL appM k x).fn a = k.fn a := by
        unfold preAppStep; split
        · exact ⟨rfl, rfl, rfl⟩
        · rename_i hx
          have : a ≠ x.2.name := by rintro rfl; exact hx ha
          dsimp only
          rw [add_tp, add_fp, add_fn, if_neg this, if_neg this, if_neg this]
          exact ⟨rfl, rfl, rfl⟩
      rw [hs.1, hs.2.1, hs.2.2]
      simp

end Model

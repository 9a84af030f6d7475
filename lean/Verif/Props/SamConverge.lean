import Mathlib.Order.Nat
import Mathlib.Data.Finset.Lattice.Fold
import Mathlib.Data.Nat.Find
import Verif.Props.SamOptimal
import Verif.Props.SamConstants

/-! C142: SAM converges, and errs a bounded number of times. -/
namespace Props
open Model Spec

namespace SamConverge
open SamOptimal

section
variable {D : Domain} {truth : String → Schema} {inj : Bool}

/-- A literal that the learner returns as an effect is not returned as a precondition. -/
theorem pre_eff_disjoint {obs : List (List Component)} {L' : Learner} {rep} (hD : WFDomain D) (hT : Candidate D truth obs)
    (hc : ∀ c ∈ obs.flatten, c.success = true → c.call.params.Nodup → ∀ o ∈ c.call.params, o ∉ Sig.names D.consts)
    (h : (Learner.init D .noRemove inj).learn obs = .ok (L', rep)) {a : String} (ha : a ∈ D.names) {e : Lit}
    (he : e ∈ (L'.dom.act a).eff) : e ∉ (L'.dom.act a).pre := by
  obtain ⟨L₂, rep₂, h₂, heq⟩ := learn_distinct hD h
  have hG := good_of hT hc
  rw [(heq a ha).2, eff_form_good hD hT.wf hG h₂ ha] at he
  rw [(heq a ha).1, (closed_form hD h₂ ha).1]
  obtain ⟨c, hu, hl⟩ := he
  rintro ⟨(⟨_, k⟩ | ⟨k, _⟩), _⟩
  · have hp := k c hu
    obtain ⟨h1, h2, h3, h4⟩ := mem_usable.mp hu
    subst h3
    have hg := goodCall_of hT.wf ha (hG.explained c h1 h2) h4 (hG.noConst c h1 h2 h4)
    rw [obsEff_iff (hD.sigs _ ha) hg] at hl
    rw [obsPrev_iff (hD.sigs _ ha) hg] at hp
    exact hl.2.2 hp.2
  · rw [k] at hu; simp at hu

variable {obs : ℕ → List (List Component)} {L : ℕ → Learner} {rep : ℕ → List (String × Status)}

/-- Growing data: more transitions at each step, of the same true domain; the learner, with one of the policies for negative
preconditions, is run from scratch on each. -/
structure Stream (D : Domain) (truth : String → Schema) (p : Policy) (inj : Bool) (obs : ℕ → List (List Component)) (L : ℕ → Learner)
    (rep : ℕ → List (String × Status)) : Prop where
  cand : ∀ i, Candidate D truth (obs i)
  noConst : ∀ i, ∀ c ∈ (obs i).flatten, c.success = true → c.call.params.Nodup → ∀ o ∈ c.call.params, o ∉ Sig.names D.consts
  grow : ∀ i, ∀ c ∈ (obs i).flatten, c ∈ (obs (i + 1)).flatten
  learn : ∀ i, (Learner.init D p inj).learn (obs i) = .ok (L i, rep i)

theorem Stream.cand_mono (S : Stream D truth .noRemove inj obs L rep) {i : ℕ} {M : String → Schema} (h : Candidate D M (obs (i + 1))) :
    Candidate D M (obs i) := ⟨h.wf, fun c hc => h.explains c (S.grow i c hc)⟩

theorem Stream.pre_mono (S : Stream D truth .noRemove inj obs L rep) (hD : WFDomain D) {a : String} (ha : a ∈ D.names) (i : ℕ) :
    ((L (i + 1)).dom.act a).pre ⊆ ((L i).dom.act a).pre := by
  intro l
  rw [C139_preconditions hD (S.cand _) (S.noConst _) (S.learn _) ha, C139_preconditions hD (S.cand _) (S.noConst _) (S.learn _) ha]
  rintro ⟨M, hM, hl⟩
  exact ⟨M, S.cand_mono hM, hl⟩

theorem Stream.eff_mono (S : Stream D truth .noRemove inj obs L rep) (hD : WFDomain D) {a : String} (ha : a ∈ D.names) (i : ℕ) :
    ((L i).dom.act a).eff ⊆ ((L (i + 1)).dom.act a).eff := by
  intro l
  rw [C139_effects hD (S.cand _) (S.noConst _) (S.learn _) ha, C139_effects hD (S.cand _) (S.noConst _) (S.learn _) ha]
  intro h M hM
  exact h M (S.cand_mono hM)

/-- Each change of the effects is a change of the preconditions. -/
theorem Stream.eff_of_pre (S : Stream D truth .noRemove inj obs L rep) (hD : WFDomain D) {a : String} (ha : a ∈ D.names) (i : ℕ)
    (hp : ((L (i + 1)).dom.act a).pre = ((L i).dom.act a).pre) : ((L (i + 1)).dom.act a).eff = ((L i).dom.act a).eff := by
  refine Finset.Subset.antisymm (fun e he => ?_) (S.eff_mono hD ha i)
  by_contra hne
  have hcand := S.cand_mono (C139_learned_is_candidate hD (S.cand (i + 1)) (S.noConst _) (S.learn _))
  rcases (C139_possible_effects hD (S.cand i) (S.noConst _) (S.learn _) ha e).mp ⟨_, hcand, he⟩ with k | ⟨k, _⟩
  · exact hne k
  · exact pre_eff_disjoint hD (S.cand (i + 1)) (S.noConst _) (S.learn _) ha he (hp ▸ k)

theorem Stream.bounds (S : Stream D truth .noRemove inj obs L rep) (hD : WFDomain D) {a : String} (ha : a ∈ D.names) (i : ℕ) :
    (truth a).pre ⊆ ((L i).dom.act a).pre ∧ ∀ l ∈ ((L i).dom.act a).pre, TypedLit D.preds ((D.act a).sig ++ D.consts) l := by
  refine ⟨fun l hl => (C139_preconditions hD (S.cand _) (S.noConst _) (S.learn _) ha l).mpr ⟨truth, S.cand i, hl⟩, fun l hl => ?_⟩
  exact ((C139_learned_is_candidate hD (S.cand i) (S.noConst _) (S.learn _)).wf.wf a ha).pre l hl

/-- A shrinking sequence of finite sets above `B` and inside `V` shrinks at most `|V| - |B|` times. -/
theorem shrink_count {P : ℕ → Finset Lit} {B V : Finset Lit} (hm : ∀ i, P (i + 1) ⊆ P i) (hB : ∀ i, B ⊆ P i) (hV : P 0 ⊆ V) (n : ℕ) :
    ((Finset.range n).filter fun i => P (i + 1) ≠ P i).card + B.card ≤ V.card := by
  have key : ∀ n, ((Finset.range n).filter fun i => P (i + 1) ≠ P i).card + (P n).card ≤ V.card := by
    intro n
    induction n with
    | zero => simpa using Finset.card_le_card hV
    | succ n ih =>
      rw [Finset.range_add_one, Finset.filter_insert]
      split
      · rename_i hne
        rw [Finset.card_insert_of_notMem (by simp)]
        have := Finset.card_lt_card (Finset.ssubset_iff_subset_ne.mpr ⟨hm n, hne⟩)
        omega
      · rename_i he
        push Not at he
        rw [he]; exact ih
  exact le_trans (Nat.add_le_add_left (Finset.card_le_card (hB n)) _) (key n)

/-- C142 (changes), for the policy that removes nothing. However long the stream, what is learned for an action changes at most as often as there are typed
literals over its parameters that are not true preconditions. -/
theorem changes_noRemove (hD : WFDomain D) (S : Stream D truth .noRemove inj obs L rep) {a : String} (ha : a ∈ D.names)
    {V : Finset Lit} (hV : ∀ l, TypedLit D.preds ((D.act a).sig ++ D.consts) l → l ∈ V) (n : ℕ) :
    ((Finset.range n).filter fun i => ¬ (((L (i + 1)).dom.act a).pre = ((L i).dom.act a).pre ∧
      ((L (i + 1)).dom.act a).eff = ((L i).dom.act a).eff)).card + (truth a).pre.card ≤ V.card := by
  refine le_trans (Nat.add_le_add_right (Finset.card_le_card ?_) _)
    (shrink_count (P := fun i => ((L i).dom.act a).pre) (S.pre_mono hD ha) (fun i => (S.bounds hD ha i).1)
      (fun l hl => hV l ((S.bounds hD ha 0).2 l hl)) n)
  intro i hi
  rw [Finset.mem_filter] at hi ⊢
  exact ⟨hi.1, fun k => hi.2 ⟨k, S.eff_of_pre hD ha i k⟩⟩

/-- C142 (convergence), same policy. From some point on the learned action no longer changes. -/
theorem converges_noRemove (hD : WFDomain D) (S : Stream D truth .noRemove inj obs L rep) {a : String} (ha : a ∈ D.names) :
    ∃ N, ∀ i, N ≤ i → ((L i).dom.act a).pre = ((L N).dom.act a).pre ∧ ((L i).dom.act a).eff = ((L N).dom.act a).eff := by
  by_contra hcon
  push Not at hcon
  set P := fun i => ((L i).dom.act a).pre with hP
  -- a point where the size is least
  obtain ⟨N, hN⟩ : ∃ N, ∀ i, (P N).card ≤ (P i).card := by
    classical
    have hex : ∃ k, ∃ i, (P i).card = k := ⟨_, 0, rfl⟩
    obtain ⟨N, hN⟩ := Nat.find_spec hex
    exact ⟨N, fun i => by rw [hN]; exact Nat.find_min' hex ⟨i, rfl⟩⟩
  have hall : ∀ i, N ≤ i → P i = P N ∧ ((L i).dom.act a).eff = ((L N).dom.act a).eff := by
    intro i hi
    induction i, hi using Nat.le_induction with
    | base => exact ⟨rfl, rfl⟩
    | succ i hi ih =>
      have hs : P (i + 1) = P i := Finset.eq_of_subset_of_card_le (S.pre_mono hD ha i) (by rw [ih.1]; exact hN _)
      exact ⟨hs.trans ih.1, (S.eff_of_pre hD ha i hs).trans ih.2⟩
  obtain ⟨i, hi, hne⟩ := hcon N
  exact hne (hall i hi).1 (hall i hi).2

/-- C142 (mistake bound), same policy. The learner predicts each next transition with what it learned from the previous ones: it refuses
or mispredicts at most as many transitions of an action (with distinct objects) as there are typed literals that
are not true preconditions, however long the stream. -/
theorem mistakes_noRemove (hD : WFDomain D) (S : Stream D truth .noRemove inj obs L rep) {a : String} (ha : a ∈ D.names)
    {V : Finset Lit} (hV : ∀ l, TypedLit D.preds ((D.act a).sig ++ D.consts) l → l ∈ V)
    {t : ℕ → Component} (ht : ∀ i, t i ∈ (obs (i + 1)).flatten) {bad : Finset ℕ}
    (hbad : ∀ i ∈ bad, (t i).success = true ∧ (t i).call.name = a ∧ (t i).call.params.Nodup ∧
      ¬ (applicable ((L i).dom.act a).pre (substOf truth (t i)) (t i).prev ∧
        successor ((L i).dom.act a).eff (substOf truth (t i)) (t i).prev = (t i).next)) :
    bad.card + (truth a).pre.card ≤ V.card := by
  refine le_trans (Nat.add_le_add_right (Finset.card_le_card ?_) _) (changes_noRemove hD S ha hV (bad.sup id + 1))
  intro i hi
  rw [Finset.mem_filter, Finset.mem_range]
  refine ⟨Nat.lt_succ_of_le (Finset.le_sup (f := id) hi), ?_⟩
  rintro ⟨h1, h2⟩
  obtain ⟨hs, hnm, hd, hno⟩ := hbad i hi
  have hx := (C139_learned_is_candidate hD (S.cand (i + 1)) (S.noConst _) (S.learn _)).explains (t i) (ht i) hs hd
  have hsub : substOf (learned D (L (i + 1))) (t i) = substOf truth (t i) := by
    unfold substOf; rw [hnm, (S.cand i).wf.params a ha]; rfl
  apply hno
  rw [← h1, ← h2, ← hsub]
  have ha' := hx.app
  have hn' := hx.next
  rw [hnm] at ha' hn'
  exact ⟨ha', hn'.symm⟩

variable {p : Policy}

/-- The same stream learned with the policy that removes nothing. -/
theorem Stream.full (S : Stream D truth p inj obs L rep) (hD : WFDomain D) : ∃ L₀ rep₀, Stream D truth .noRemove inj obs L₀ rep₀ ∧
    ∀ i, ∀ a ∈ D.names, ((L i).dom.act a).eff = ((L₀ i).dom.act a).eff ∧
      ∀ l, l ∈ ((L i).dom.act a).pre ↔ l ∈ ((L₀ i).dom.act a).pre ∧ polKeep p ((L₀ i).dom.act a).eff l := by
  have h : ∀ i, ∃ r, (Learner.init D .noRemove inj).learn (obs i) = .ok r := fun i => learn_ok_policy (q := .noRemove) hD.names (S.learn i)
  choose r hr using h
  refine ⟨fun i => (r i).1, fun i => (r i).2, ⟨S.cand, S.noConst, S.grow, hr⟩, fun i a ha => ?_⟩
  obtain ⟨f1, _, f3⟩ := policy_factor hD.names (S.learn i) (hr i) a ha
  exact ⟨f1, f3⟩

/-- **C142 (changes).** However long the stream and whatever the policy, what is learned for an action changes at most as often
as there are typed literals over its parameters that are not true preconditions. -/
theorem C142_changes (hD : WFDomain D) (S : Stream D truth p inj obs L rep) {a : String} (ha : a ∈ D.names)
    {V : Finset Lit} (hV : ∀ l, TypedLit D.preds ((D.act a).sig ++ D.consts) l → l ∈ V) (n : ℕ) :
    ((Finset.range n).filter fun i => ¬ (((L (i + 1)).dom.act a).pre = ((L i).dom.act a).pre ∧
      ((L (i + 1)).dom.act a).eff = ((L i).dom.act a).eff)).card + (truth a).pre.card ≤ V.card := by
  obtain ⟨L₀, rep₀, S₀, h₀⟩ := S.full hD
  refine le_trans (Nat.add_le_add_right (Finset.card_le_card ?_) _) (changes_noRemove hD S₀ ha hV n)
  intro i hi
  rw [Finset.mem_filter] at hi ⊢
  refine ⟨hi.1, fun ⟨k1, k2⟩ => hi.2 ⟨?_, ?_⟩⟩
  · ext l; rw [(h₀ _ a ha).2, (h₀ _ a ha).2, k1, k2]
  · rw [(h₀ _ a ha).1, (h₀ _ a ha).1, k2]

/-- **C142 (convergence).** From some point on the learned action no longer changes. -/
theorem C142_converges (hD : WFDomain D) (S : Stream D truth p inj obs L rep) {a : String} (ha : a ∈ D.names) :
    ∃ N, ∀ i, N ≤ i → ((L i).dom.act a).pre = ((L N).dom.act a).pre ∧ ((L i).dom.act a).eff = ((L N).dom.act a).eff := by
  obtain ⟨L₀, rep₀, S₀, h₀⟩ := S.full hD
  obtain ⟨N, hN⟩ := converges_noRemove hD S₀ ha
  refine ⟨N, fun i hi => ⟨?_, ?_⟩⟩
  · ext l; rw [(h₀ _ a ha).2, (h₀ _ a ha).2, (hN i hi).1, (hN i hi).2]
  · rw [(h₀ _ a ha).1, (h₀ _ a ha).1, (hN i hi).2]

/-- **C142 (mistake bound).** The learner, with any policy, predicts each next transition with what it learned from the previous
ones: it refuses or mispredicts at most as many transitions of an action (with distinct objects) as there are typed literals
that are not true preconditions, however long the stream. -/
theorem C142_mistakes (hD : WFDomain D) (S : Stream D truth p inj obs L rep) {a : String} (ha : a ∈ D.names)
    {V : Finset Lit} (hV : ∀ l, TypedLit D.preds ((D.act a).sig ++ D.consts) l → l ∈ V)
    {t : ℕ → Component} (ht : ∀ i, t i ∈ (obs (i + 1)).flatten) {bad : Finset ℕ}
    (hbad : ∀ i ∈ bad, (t i).success = true ∧ (t i).call.name = a ∧ (t i).call.params.Nodup ∧
      ¬ (applicable ((L i).dom.act a).pre (substOf truth (t i)) (t i).prev ∧
        successor ((L i).dom.act a).eff (substOf truth (t i)) (t i).prev = (t i).next)) :
    bad.card + (truth a).pre.card ≤ V.card := by
  obtain ⟨L₀, rep₀, S₀, h₀⟩ := S.full hD
  refine mistakes_noRemove hD S₀ ha hV ht fun i hi => ?_
  obtain ⟨h1, h2, h3, h4⟩ := hbad i hi
  refine ⟨h1, h2, h3, fun ⟨k1, k2⟩ => h4 ⟨fun l hl => k1 l (((h₀ i a ha).2 l).mp hl).1, ?_⟩⟩
  rw [(h₀ i a ha).1]; exact k2

end

/-! ### Cases -/

section
open Props.Limits

/-- The action makes its object `p`; first seen where the object is not `p`, then where it already is. -/
def demo (i : ℕ) : Component := comp (if i = 0 then ∅ else {A "p" ["a"]}) ["a"] {A "p" ["a"]}

abbrev sig1 : Sig := [("?x", o)]
abbrev D1 : Domain := dom [p1] [] sig1
abbrev T1 : String → Schema := tru sig1 ∅ {P "?x"}

theorem demo_stream : ∃ L rep, Stream D1 T1 .noRemove true (fun n => [(List.range n).map demo]) L rep ∧
    L = fun n => runLearn (Learner.init D1) [(List.range n).map demo] := by
  have hok : ∀ n, ∃ rep, (Learner.init D1).learn [(List.range n).map demo] = .ok (runLearn (Learner.init D1) [(List.range n).map demo], rep) := by
    intro n
    apply runLearn_eq (D := D1) (p := .noRemove) (i := true) (by decide)
    simp [demo, comp, D1, dom]
  choose rep hrep using hok
  have h1 : ProblemOK D1 T1 [[demo 0, demo 1]] := by decide +kernel
  refine ⟨_, rep, ⟨fun n => ⟨h1.sound.2.1, ?_⟩, ?_, ?_, hrep⟩, rfl⟩
  · intro c hc hs _
    simp only [List.flatten_cons, List.flatten_nil, List.append_nil, List.mem_map, List.mem_range] at hc
    obtain ⟨i, _, rfl⟩ := hc
    apply h1.sound.2.2 _ _ hs
    rcases i with _ | i <;> simp [demo]
  · intro i c _ _ _ x _; simp [D1, dom, Sig.names]
  · intro i c hc
    simp only [List.flatten_cons, List.flatten_nil, List.append_nil, List.mem_map, List.mem_range] at hc ⊢
    obtain ⟨j, hj, rfl⟩ := hc
    exact ⟨j, by omega, rfl⟩

/-- **C142, the bound is attained.** Two literals can be preconditions, none is one, and the first two transitions are refused. -/
theorem C142_bound_attained : ∃ (D : Domain) (truth : String → Schema) (t : ℕ → Component) (L : ℕ → Learner)
    (rep : ℕ → List (String × Status)) (V : Finset Lit),
    WFDomain D ∧ Stream D truth .noRemove true (fun n => [(List.range n).map t]) L rep ∧
    (∀ l, TypedLit D.preds ((D.act "act").sig ++ D.consts) l → l ∈ V) ∧
    (∀ i ∈ ({0, 1} : Finset ℕ), (t i).success = true ∧ (t i).call.name = "act" ∧ (t i).call.params.Nodup ∧
      ¬ applicable ((L i).dom.act "act").pre (substOf truth (t i)) (t i).prev) ∧
    ({0, 1} : Finset ℕ).card + (truth "act").pre.card = V.card := by
  obtain ⟨L, rep, hS, hL⟩ := demo_stream
  have h1 : ProblemOK D1 T1 [[demo 0, demo 1]] := by decide +kernel
  refine ⟨D1, T1, demo, L, rep, liftedVocab D1 sig1, h1.sound.1, hS, ?_, ?_, by decide +kernel⟩
  · intro l hl
    exact (liftedVocab_typed (h1.sound.1.sigs "act" (by decide))).mpr hl
  · subst hL
    decide +kernel

end
end SamConverge
end Props

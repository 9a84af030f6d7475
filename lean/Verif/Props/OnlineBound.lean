import Mathlib.Data.Finset.Powerset
import Mathlib.Data.Finset.Lattice.Fold
import Verif.Props.Online

/-! C143: the discrete online learner is surprised a bounded number of times. -/
namespace Props
open Model Spec

namespace OnlineBound

section
variable {V T : Finset Lit}

/-- The learner, knowing the attempts `h`, predicts neither that the next one succeeds nor that it fails. -/
def Open (V : Finset Lit) (h : List Attempt) (a : Attempt) : Prop :=
  (learned V h).inSafe (seen V a.ρ a.before) = false ∧ (learned V h).notApplicable (seen V a.ρ a.before) = false

instance (h : List Attempt) (a : Attempt) : Decidable (Open V h a) := by unfold Open; infer_instance

/-- The attempts of a history whose outcome the learner could not predict from the earlier ones, by their positions. -/
def openAt (V : Finset Lit) (h : List Attempt) : Finset ℕ :=
  (Finset.range h.length).filter fun i => ∃ a ∈ h[i]?, Open V (h.take i) a

theorem mem_openAt {h : List Attempt} {i : ℕ} : i ∈ openAt V h ↔ ∃ a, h[i]? = some a ∧ Open V (h.take i) a := by
  unfold openAt
  rw [Finset.mem_filter, Finset.mem_range]
  constructor
  · rintro ⟨_, a, h1, h2⟩; exact ⟨a, h1, h2⟩
  · rintro ⟨a, h1, h2⟩; exact ⟨(List.getElem?_eq_some_iff.mp h1).1, a, h1, h2⟩

theorem openAt_snoc_old {h : List Attempt} {a : Attempt} {i : ℕ} (hi : i < h.length) : i ∈ openAt V (h ++ [a]) ↔ i ∈ openAt V h := by
  rw [mem_openAt, mem_openAt, List.getElem?_append_left hi, List.take_append_of_le_length hi.le]

theorem openAt_snoc_new {h : List Attempt} {a : Attempt} : h.length ∈ openAt V (h ++ [a]) ↔ Open V h a := by
  rw [mem_openAt]; simp

theorem openAt_lt {h : List Attempt} {i : ℕ} (hi : i ∈ openAt V h) : i < h.length := by
  obtain ⟨a, ha, _⟩ := mem_openAt.mp hi
  exact (List.getElem?_eq_some_iff.mp ha).1

theorem openAt_snoc {h : List Attempt} {a : Attempt} :
    openAt V (h ++ [a]) = if Open V h a then insert h.length (openAt V h) else openAt V h := by
  ext i
  have hlt : i ∈ openAt V (h ++ [a]) → i < h.length ∨ i = h.length := by
    intro k; have := openAt_lt k; simp at this; omega
  by_cases e : i = h.length
  · subst e
    have hn : h.length ∉ openAt V h := fun k => absurd (openAt_lt k) (by simp)
    rw [openAt_snoc_new]
    split <;> simp_all
  · constructor
    · intro k
      have hi : i < h.length := (hlt k).resolve_right e
      rw [openAt_snoc_old hi] at k
      split <;> simp [k]
    · intro k
      have k' : i ∈ openAt V h := by
        split at k
        · exact (Finset.mem_insert.mp k).resolve_left e
        · exact k
      exact (openAt_snoc_old (openAt_lt k')).mpr k'

theorem prefix_consistent {h : List Attempt} {a : Attempt} (hT : PreConsistent V (h ++ [a]) T) : PreConsistent V h T :=
  ⟨hT.1, fun b hb => hT.2 b (List.mem_append_left _ hb)⟩

/-- Both outcomes are possible exactly when the learner predicts none. -/
theorem open_iff {h : List Attempt} (hT : PreConsistent V h T) (a : Attempt) : Open V h a ↔
    (∃ P, PreConsistent V h P ∧ applicable P a.ρ a.before) ∧ ∃ P, PreConsistent V h P ∧ ¬ applicable P a.ρ a.before := by
  unfold Open
  rw [Bool.eq_false_iff, Bool.eq_false_iff, ne_eq, ne_eq, C30_safe_exact ⟨T, hT⟩, C31_not_applicable_exact]
  push Not
  exact and_comm

/-- **C143 (all attempts).** Among the attempts of any history that some precondition over the vocabulary explains, fewer than
`2 ^ |V|` had an outcome the learner could not predict from the earlier ones. -/
theorem C143_open_attempts {h : List Attempt} (hT : PreConsistent V h T) : (openAt V h).card < 2 ^ V.card := by
  classical
  have key : ∀ h : List Attempt, PreConsistent V h T →
      (openAt V h).card + (V.powerset.filter fun P => PreConsistent V h P).card ≤ 2 ^ V.card := by
    intro h
    induction h using List.reverseRecOn with
    | nil =>
      intro _
      rw [← Finset.card_powerset]
      have h0 : openAt V [] = ∅ := by simp [openAt]
      rw [h0, Finset.card_empty, Nat.zero_add]
      exact Finset.card_le_card (Finset.filter_subset _ _)
    | append_singleton h a ih =>
      intro hT
      have ih := ih (prefix_consistent hT)
      have hsub : (V.powerset.filter fun P => PreConsistent V (h ++ [a]) P) ⊆ V.powerset.filter fun P => PreConsistent V h P := by
        intro P hP
        rw [Finset.mem_filter] at hP ⊢
        exact ⟨hP.1, prefix_consistent hP.2⟩
      rw [openAt_snoc]
      split
      · rename_i ho
        rw [Finset.card_insert_of_notMem (fun k => absurd (openAt_lt k) (by simp))]
        have : (V.powerset.filter fun P => PreConsistent V (h ++ [a]) P).card < (V.powerset.filter fun P => PreConsistent V h P).card := by
          apply Finset.card_lt_card
          refine ⟨hsub, fun hall => ?_⟩
          obtain ⟨⟨P, hP, hPa⟩, Q, hQ, hQa⟩ := (open_iff (prefix_consistent hT) a).mp ho
          have h1 := (Finset.mem_filter.mp (hall (Finset.mem_filter.mpr ⟨Finset.mem_powerset.mpr hP.1, hP⟩))).2.2 a (by simp)
          have h2 := (Finset.mem_filter.mp (hall (Finset.mem_filter.mpr ⟨Finset.mem_powerset.mpr hQ.1, hQ⟩))).2.2 a (by simp)
          exact hQa (h2.mp (h1.mpr hPa))
        omega
      · exact le_trans (Nat.add_le_add_left (Finset.card_le_card hsub) _) ih
  have := key h hT
  have hpos : 0 < (V.powerset.filter fun P => PreConsistent V h P).card :=
    Finset.card_pos.mpr ⟨T, Finset.mem_filter.mpr ⟨Finset.mem_powerset.mpr hT.1, hT⟩⟩
  omega

/-- **C143 (successes).** At most `|V| - |T|` successes were not predicted to succeed, for each precondition `T` that explains
the history. -/
theorem C143_open_successes {h : List Attempt} (hT : PreConsistent V h T) :
    ((openAt V h).filter fun i => ∃ a ∈ h[i]?, a.ok = true).card + T.card ≤ V.card := by
  have key : ∀ h : List Attempt, PreConsistent V h T →
      ((openAt V h).filter fun i => ∃ a ∈ h[i]?, a.ok = true).card + (learned V h).safeModel.1.card ≤ V.card := by
    intro h
    induction h using List.reverseRecOn with
    | nil =>
      intro _
      have h0 : openAt V [] = ∅ := by simp [openAt]
      simp [h0, learned, DiscreteOnline.feed, DiscreteOnline.init, DiscreteOnline.safeModel]
    | append_singleton h a ih =>
      intro hT
      have ih := ih (prefix_consistent hT)
      have hc' := ((C30_safe_precondition (V := V) (h := h ++ [a])).1 T hT).2
      have hsub : (learned V (h ++ [a])).safeModel.1 ⊆ (learned V h).safeModel.1 :=
        ((C30_safe_precondition (V := V) (h := h)).1 _ (prefix_consistent hc')).1
      have hold : (openAt V h).filter (fun i => ∃ b ∈ (h ++ [a])[i]?, b.ok = true) = (openAt V h).filter fun i => ∃ b ∈ h[i]?, b.ok = true := by
        apply Finset.filter_congr
        intro i hi
        rw [List.getElem?_append_left (openAt_lt hi)]
      rw [openAt_snoc]
      split
      · rename_i ho
        rw [Finset.filter_insert]
        split
        · rename_i hok
          have hok : a.ok = true := by simpa using hok
          rw [Finset.card_insert_of_notMem (fun k => absurd (openAt_lt (Finset.mem_filter.mp k).1) (by simp)), hold]
          have : (learned V (h ++ [a])).safeModel.1.card < (learned V h).safeModel.1.card := by
            apply Finset.card_lt_card
            refine ⟨hsub, fun hall => ?_⟩
            have h1 : applicable (learned V (h ++ [a])).safeModel.1 a.ρ a.before := (hc'.2 a (by simp)).mp hok
            have h2 : applicable (learned V h).safeModel.1 a.ρ a.before := fun l hl => h1 l (hall hl)
            rw [(C30_safe_precondition (V := V) (h := h)).2, ho.1] at h2
            exact absurd h2 (by simp)
          omega
        · rw [hold]
          exact le_trans (Nat.add_le_add_left (Finset.card_le_card hsub) _) ih
      · rw [hold]
        exact le_trans (Nat.add_le_add_left (Finset.card_le_card hsub) _) ih
  exact le_trans (Nat.add_le_add_left (Finset.card_le_card ((C30_safe_precondition (V := V) (h := h)).1 T hT).1) _) (key h hT)

/-- **C143 (infinite exploration).** In an endless series of attempts the outcome of every attempt is predicted, and correctly,
from some point on. -/
theorem C143_eventually_predicted {t : ℕ → Attempt} (hTV : T ⊆ V) (hT : ∀ i, (t i).ok = true ↔ applicable T (t i).ρ (t i).before) :
    ∃ N, ∀ i, N ≤ i →
      ((t i).ok = true → (learned V ((List.range i).map t)).inSafe (seen V (t i).ρ (t i).before) = true) ∧
      ((t i).ok = false → (learned V ((List.range i).map t)).notApplicable (seen V (t i).ρ (t i).before) = true) := by
  have hcons : ∀ n, PreConsistent V ((List.range n).map t) T := by
    intro n
    refine ⟨hTV, fun a ha => ?_⟩
    obtain ⟨i, _, rfl⟩ := List.mem_map.mp ha
    exact hT i
  have hsucc : ∀ n, (List.range (n + 1)).map t = (List.range n).map t ++ [t n] := by intro n; rw [List.range_succ]; simp
  have hmono : ∀ n, openAt V ((List.range n).map t) ⊆ openAt V ((List.range (n + 1)).map t) := by
    intro n
    rw [hsucc, openAt_snoc]
    split
    · exact Finset.subset_insert _ _
    · exact Finset.Subset.refl _
  -- a point where the number of open attempts is largest
  obtain ⟨N, hN⟩ : ∃ N, ∀ i, N ≤ i → ¬ Open V ((List.range i).map t) (t i) := by
    by_contra hcon
    push Not at hcon
    have grow : ∀ k, ∃ n, k ≤ (openAt V ((List.range n).map t)).card := by
      intro k
      induction k with
      | zero => exact ⟨0, by simp⟩
      | succ k ih =>
        obtain ⟨n, hn⟩ := ih
        obtain ⟨i, hi, ho⟩ := hcon n
        refine ⟨i + 1, ?_⟩
        have hle : (openAt V ((List.range n).map t)).card ≤ (openAt V ((List.range i).map t)).card := by
          apply Finset.card_le_card
          clear ho
          induction i, hi using Nat.le_induction with
          | base => exact Finset.Subset.refl _
          | succ j _ ih => exact ih.trans (hmono j)
        rw [hsucc, openAt_snoc, if_pos ho, Finset.card_insert_of_notMem (fun k => absurd (openAt_lt k) (by simp))]
        omega
    obtain ⟨n, hn⟩ := grow (2 ^ V.card)
    have := C143_open_attempts (hcons n)
    omega
  refine ⟨N, fun i hi => ?_⟩
  have hno := hN i hi
  have hsafe : (learned V ((List.range i).map t)).inSafe (seen V (t i).ρ (t i).before) = true → (t i).ok = true := fun h =>
    (hT i).mpr ((C30_safe_exact ⟨T, hcons i⟩ _ _).mp h T (hcons i))
  have hnot : (learned V ((List.range i).map t)).notApplicable (seen V (t i).ρ (t i).before) = true → (t i).ok ≠ true := fun h k =>
    (C31_not_applicable_exact _ _).mp h T (hcons i) ((hT i).mp k)
  unfold Open at hno
  cases h1 : (learned V ((List.range i).map t)).inSafe (seen V (t i).ρ (t i).before) <;>
    cases h2 : (learned V ((List.range i).map t)).notApplicable (seen V (t i).ρ (t i).before) <;> simp_all

end

/-! ### Cases -/

private def p : Lit := ⟨"p", ["?x"], true⟩
private def q : Lit := ⟨"q", ["?x"], true⟩
private def sub (x : String) : String := if x = "?x" then "a" else x
private def at_ (s : State) (ok : Bool) : Attempt := ⟨sub, s, s, ok⟩
private def hist3 : List Attempt := [at_ ∅ false, at_ {⟨"p", ["a"]⟩} false, at_ {⟨"q", ["a"]⟩} false]
private def hist2 : List Attempt := [at_ {⟨"p", ["a"]⟩} true, at_ ∅ true]

/-- **C143, both bounds are attained.** Failures in all smaller states, each of them unpredicted; successes that remove the
candidates for preconditions one by one. -/
theorem C143_bounds_attained : ∃ (V T : Finset Lit) (h h' : List Attempt), V.card = 2 ∧ PreConsistent V h T ∧
    (openAt V h).card + 1 = 2 ^ V.card ∧ PreConsistent V h' ∅ ∧
    ((openAt V h').filter fun i => ∃ a ∈ h'[i]?, a.ok = true).card = V.card := by
  refine ⟨{p, q}, {p, q}, hist3, hist2, by decide +kernel, ?_, by decide +kernel, ?_, by decide +kernel⟩
  · unfold PreConsistent
    refine ⟨by decide +kernel, ?_⟩
    simp only [hist3, List.forall_mem_cons]
    exact ⟨by decide +kernel, by decide +kernel, by decide +kernel, by simp⟩
  · unfold PreConsistent
    refine ⟨by decide +kernel, ?_⟩
    simp only [hist2, List.forall_mem_cons]
    exact ⟨by decide +kernel, by decide +kernel, by simp⟩

end OnlineBound
end Props

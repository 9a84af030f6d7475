import Verif.Model.Online
import Verif.Lemmas.Strips
import Verif.Lemmas.Dependency

/-! The online learner of the discrete part represents the set of all consistent preconditions. -/
namespace Model
open Spec

theorem mem_seen {V : Finset Lit} {ρ : String → String} {s : State} {l : Lit} :
    l ∈ seen V ρ s ↔ l ∈ V ∧ holds s (ground ρ l) := by unfold seen; simp

theorem applicable_iff_subset {V T : Finset Lit} (hT : T ⊆ V) {ρ : String → String} {s : State} :
    applicable T ρ s ↔ T ⊆ seen V ρ s :=
  ⟨fun h l hl => mem_seen.mpr ⟨hT hl, h l hl⟩, fun h l hl => (mem_seen.mp (h hl)).2⟩

/-- A set of literals meets every clause. -/
def Hits (T : Finset Lit) (cl : List (Finset Lit)) : Prop := ∀ c ∈ cl, ∃ l ∈ T, l ∈ c

theorem hits_unitPropagation (T : Finset Lit) (cl : List (Finset Lit)) : Hits T (unitPropagation cl) ↔ Hits T cl := by
  unfold Hits unitPropagation
  simp only [List.mem_append, List.mem_filter, decide_eq_true_eq]
  constructor
  · intro h c hc
    by_cases h1 : c.card = 1
    · exact h c (Or.inl ⟨hc, h1⟩)
    · by_cases h2 : 0 < (c ∩ unionAll (cl.filter fun c => c.card = 1)).card
      · obtain ⟨x, hx⟩ := Finset.card_pos.mp h2
        rw [Finset.mem_inter, mem_unionAll] at hx
        obtain ⟨hxc, u, hu, hxu⟩ := hx
        simp only [List.mem_filter, decide_eq_true_eq] at hu
        obtain ⟨l, hl, hlu⟩ := h u (Or.inl hu)
        obtain ⟨y, hy⟩ := Finset.card_eq_one.mp hu.2
        rw [hy, Finset.mem_singleton] at hxu hlu
        subst hxu; subst hlu
        exact ⟨_, hl, hxc⟩
      · exact h c (Or.inr ⟨hc, h1, h2⟩)
  · rintro h c (⟨hc, _⟩ | ⟨hc, _⟩) <;> exact h c hc

theorem mem_unitPropagation {cl : List (Finset Lit)} {c : Finset Lit} (h : c ∈ unitPropagation cl) : c ∈ cl := by
  unfold unitPropagation at h
  simp only [List.mem_append, List.mem_filter] at h
  rcases h with h | h <;> exact h.1

/-- What the fields mean after a history. -/
structure OnlineInv (V : Finset Lit) (h : List Attempt) (L : DiscreteOnline) : Prop where
  superset : L.superset = V
  cannot : L.cannotPre ⊆ V
  clauses : ∀ c ∈ L.mustPre, c ⊆ V \ L.cannotPre
  space : ∀ T, T ⊆ V → (PreConsistent V h T ↔ T ∩ L.cannotPre = ∅ ∧ Hits T L.mustPre)
  cannotPre : ∀ l, l ∈ L.cannotPre ↔ l ∈ V ∧ ∃ a ∈ h, a.ok = true ∧ ¬ holds a.before (ground a.ρ l)
  cannotEff : ∀ l, l ∈ L.cannotEff ↔ ∃ a ∈ h, a.ok = true ∧ l.neg ∈ seen V a.ρ a.after
  mustEff : ∀ l, l ∈ L.mustEff → ∃ a ∈ h, a.ok = true ∧ l ∈ seen V a.ρ a.after ∧ l ∉ seen V a.ρ a.before
  mustEff' : ∀ l, (∃ a ∈ h, a.ok = true ∧ l ∈ seen V a.ρ a.after ∧ l ∉ seen V a.ρ a.before) → l ∉ L.cannotEff → l ∈ L.mustEff
  mustNot : ∀ l, l ∈ L.mustEff → l ∉ L.cannotEff

theorem OnlineInv.init (V : Finset Lit) : OnlineInv V [] (DiscreteOnline.init V) where
  superset := rfl
  cannot := by simp [DiscreteOnline.init]
  clauses := by simp [DiscreteOnline.init]
  space := by intro T hT; simp [DiscreteOnline.init, Hits, PreConsistent, hT]
  cannotPre := by simp [DiscreteOnline.init]
  cannotEff := by simp [DiscreteOnline.init]
  mustEff := by simp [DiscreteOnline.init]
  mustEff' := by simp
  mustNot := by simp [DiscreteOnline.init]

theorem preConsistent_append {V : Finset Lit} {h : List Attempt} {a : Attempt} {T : Finset Lit} :
    PreConsistent V (h ++ [a]) T ↔ PreConsistent V h T ∧ (a.ok = true ↔ applicable T a.ρ a.before) := by
  unfold PreConsistent
  simp only [List.mem_append, List.mem_singleton]
  constructor
  · rintro ⟨h1, h2⟩
    exact ⟨⟨h1, fun b hb => h2 b (Or.inl hb)⟩, h2 a (Or.inr rfl)⟩
  · rintro ⟨⟨h1, h2⟩, h3⟩
    refine ⟨h1, ?_⟩
    rintro b (hb | rfl)
    · exact h2 b hb
    · exact h3

theorem OnlineInv.step {V : Finset Lit} {h : List Attempt} {L : DiscreteOnline} (inv : OnlineInv V h L) (a : Attempt) :
    OnlineInv V (h ++ [a]) (L.add (seen L.superset a.ρ a.before) (seen L.superset a.ρ a.after) a.ok) := by
  rw [inv.superset]
  unfold DiscreteOnline.add
  cases hok : a.ok with
  | true =>
    rw [if_pos rfl]
    have hc : (L.posPre (seen V a.ρ a.before)).cannotPre = L.cannotPre ∪ (V \ seen V a.ρ a.before) := by
      unfold DiscreteOnline.posPre
      simp only [inv.superset]
      split
      · rename_i h0; rw [Finset.card_eq_zero.mp h0, Finset.empty_union]
      · rfl
    have hm : (L.posPre (seen V a.ρ a.before)).mustPre = L.mustPre.map (· \ (L.cannotPre ∪ (V \ seen V a.ρ a.before))) := by
      rw [← hc]; rfl
    refine ⟨inv.superset, ?_, ?_, ?_, ?_, ?_, ?_, ?_, ?_⟩
    · change (L.posPre _).cannotPre ⊆ V
      rw [hc]; exact Finset.union_subset inv.cannot Finset.sdiff_subset
    · change ∀ c ∈ (L.posPre _).mustPre, c ⊆ V \ (L.posPre _).cannotPre
      rw [hc, hm]
      intro c hcm
      obtain ⟨d, hd, rfl⟩ := List.mem_map.mp hcm
      intro x hx
      rw [Finset.mem_sdiff] at hx ⊢
      exact ⟨(Finset.mem_sdiff.mp (inv.clauses d hd hx.1)).1, hx.2⟩
    · intro T hT
      change _ ↔ T ∩ (L.posPre _).cannotPre = ∅ ∧ Hits T (L.posPre _).mustPre
      rw [hc, hm, preConsistent_append, inv.space T hT, hok]
      simp only [true_iff]
      rw [applicable_iff_subset hT]
      constructor
      · rintro ⟨⟨h1, h2⟩, h3⟩
        have hd : T ∩ (L.cannotPre ∪ (V \ seen V a.ρ a.before)) = ∅ := by
          rw [Finset.inter_union_distrib_left, h1, Finset.empty_union]
          ext x
          simp only [Finset.mem_inter, Finset.mem_sdiff, Finset.notMem_empty, iff_false]
          exact fun hx => hx.2.2 (h3 hx.1)
        refine ⟨hd, ?_⟩
        intro c hcm
        obtain ⟨d, hdm, rfl⟩ := List.mem_map.mp hcm
        obtain ⟨l, hl, hld⟩ := h2 d hdm
        refine ⟨l, hl, Finset.mem_sdiff.mpr ⟨hld, fun hn => ?_⟩⟩
        have : l ∈ T ∩ (L.cannotPre ∪ (V \ seen V a.ρ a.before)) := Finset.mem_inter.mpr ⟨hl, hn⟩
        rw [hd] at this; simp at this
      · rintro ⟨h1, h2⟩
        rw [Finset.inter_union_distrib_left, Finset.union_eq_empty] at h1
        refine ⟨⟨h1.1, ?_⟩, ?_⟩
        · intro d hd
          obtain ⟨l, hl, hld⟩ := h2 _ (List.mem_map.mpr ⟨d, hd, rfl⟩)
          exact ⟨l, hl, (Finset.mem_sdiff.mp hld).1⟩
        · intro l hl
          by_contra hn
          have : l ∈ T ∩ (V \ seen V a.ρ a.before) := Finset.mem_inter.mpr ⟨hl, Finset.mem_sdiff.mpr ⟨hT hl, hn⟩⟩
          rw [h1.2] at this; simp at this
    · intro l
      change l ∈ (L.posPre _).cannotPre ↔ _
      rw [hc, Finset.mem_union, inv.cannotPre, Finset.mem_sdiff, mem_seen]
      simp only [List.mem_append, List.mem_singleton]
      constructor
      · rintro (⟨h1, b, hb, h2⟩ | ⟨h1, h2⟩)
        · exact ⟨h1, b, Or.inl hb, h2⟩
        · exact ⟨h1, a, Or.inr rfl, hok, fun hh => h2 ⟨h1, hh⟩⟩
      · rintro ⟨h1, b, hb | rfl, h2, h3⟩
        · exact Or.inl ⟨h1, b, hb, h2, h3⟩
        · exact Or.inr ⟨h1, fun hh => h3 hh.2⟩
    · intro l
      change l ∈ L.cannotEff ∪ (seen V a.ρ a.after).image Lit.neg ↔ _
      rw [Finset.mem_union, inv.cannotEff, Finset.mem_image]
      simp only [List.mem_append, List.mem_singleton]
      constructor
      · rintro (⟨b, hb, h2⟩ | ⟨m, hm, rfl⟩)
        · exact ⟨b, Or.inl hb, h2⟩
        · exact ⟨a, Or.inr rfl, hok, by rwa [Lit.neg_neg]⟩
      · rintro ⟨b, hb | rfl, h2, h3⟩
        · exact Or.inl ⟨b, hb, h2, h3⟩
        · exact Or.inr ⟨_, h3, Lit.neg_neg l⟩
    · intro l hl
      change l ∈ (L.mustEff ∪ (seen V a.ρ a.after \ seen V a.ρ a.before)) \ _ at hl
      rw [Finset.mem_sdiff, Finset.mem_union, Finset.mem_sdiff] at hl
      rcases hl.1 with h1 | h1
      · obtain ⟨b, hb, h2⟩ := inv.mustEff l h1
        exact ⟨b, List.mem_append_left _ hb, h2⟩
      · exact ⟨a, by simp, hok, h1⟩
    · rintro l ⟨b, hb, h2, h3, h4⟩ hn
      change l ∈ (L.mustEff ∪ (seen V a.ρ a.after \ seen V a.ρ a.before)) \ (L.cannotEff ∪ (seen V a.ρ a.after).image Lit.neg)
      change l ∉ L.cannotEff ∪ (seen V a.ρ a.after).image Lit.neg at hn
      rw [Finset.mem_sdiff, Finset.mem_union, Finset.mem_sdiff]
      refine ⟨?_, hn⟩
      simp only [List.mem_append, List.mem_singleton] at hb
      rcases hb with hb | rfl
      · exact Or.inl (inv.mustEff' l ⟨b, hb, h2, h3, h4⟩ fun hh => hn (Finset.mem_union_left _ hh))
      · exact Or.inr ⟨h3, h4⟩
    · intro l hl
      exact (Finset.mem_sdiff.mp hl).2
  | false =>
    rw [if_neg (by simp)]
    have hex : ∀ P : Attempt → Prop, (∃ b ∈ h ++ [a], b.ok = true ∧ P b) ↔ ∃ b ∈ h, b.ok = true ∧ P b := by
      intro P
      simp only [List.mem_append, List.mem_singleton]
      constructor
      · rintro ⟨b, hb | rfl, h2⟩
        · exact ⟨b, hb, h2⟩
        · rw [hok] at h2; simp at h2
      · rintro ⟨b, hb, h2⟩; exact ⟨b, Or.inl hb, h2⟩
    have hfield : (L.neg (seen V a.ρ a.before)).superset = L.superset ∧ (L.neg (seen V a.ρ a.before)).cannotPre = L.cannotPre ∧
        (L.neg (seen V a.ρ a.before)).cannotEff = L.cannotEff ∧ (L.neg (seen V a.ρ a.before)).mustEff = L.mustEff := by
      unfold DiscreteOnline.neg; dsimp only; split <;> simp
    obtain ⟨f1, f2, f3, f4⟩ := hfield
    refine ⟨f1.trans inv.superset, by rw [f2]; exact inv.cannot, ?_, ?_, by intro l; rw [f2, hex]; exact inv.cannotPre l,
      by intro l; rw [f3, hex]; exact inv.cannotEff l, by intro l; rw [f4, hex]; exact inv.mustEff l,
      by intro l; rw [f3, f4, hex]; exact inv.mustEff' l, by rw [f3, f4]; exact inv.mustNot⟩
    · rw [f2]
      intro c hc
      unfold DiscreteOnline.neg at hc
      dsimp only at hc
      split at hc
      · have := mem_unitPropagation hc
        rw [List.mem_append, List.mem_singleton] at this
        rcases this with h1 | rfl
        · exact inv.clauses c h1
        · intro x hx
          rw [inv.superset] at hx
          rw [Finset.mem_sdiff] at hx ⊢
          exact ⟨(Finset.mem_sdiff.mp hx.1).1, hx.2⟩
      · exact inv.clauses c hc
    · intro T hT
      rw [f2, preConsistent_append, inv.space T hT, hok, applicable_iff_subset hT]
      simp only [Bool.false_eq_true, false_iff]
      have hmiss : (¬ T ⊆ seen V a.ρ a.before) ↔ ∃ l ∈ T, l ∈ V \ seen V a.ρ a.before := by
        rw [Finset.not_subset]
        constructor
        · rintro ⟨l, hl, hn⟩; exact ⟨l, hl, Finset.mem_sdiff.mpr ⟨hT hl, hn⟩⟩
        · rintro ⟨l, hl, hn⟩; exact ⟨l, hl, (Finset.mem_sdiff.mp hn).2⟩
      rw [hmiss, and_assoc]
      refine and_congr_right fun hd => ?_
      unfold DiscreteOnline.neg
      rw [inv.superset]
      dsimp only
      split
      · dsimp only
        rw [hits_unitPropagation]
        unfold Hits
        simp only [List.mem_append, List.mem_singleton]
        constructor
        · rintro ⟨h1, l, hl, hm⟩ c (hc | rfl)
          · exact h1 c hc
          · refine ⟨l, hl, Finset.mem_sdiff.mpr ⟨hm, fun hn => ?_⟩⟩
            have : l ∈ T ∩ L.cannotPre := Finset.mem_inter.mpr ⟨hl, hn⟩
            rw [hd] at this; simp at this
        · intro h1
          refine ⟨fun c hc => h1 c (Or.inl hc), ?_⟩
          obtain ⟨l, hl, hm⟩ := h1 _ (Or.inr rfl)
          exact ⟨l, hl, (Finset.mem_sdiff.mp hm).1⟩
      · rename_i hin
        rw [not_not] at hin
        exact ⟨fun h1 => h1.1, fun h1 => ⟨h1, h1 _ hin⟩⟩

theorem OnlineInv.feed {V : Finset Lit} (h : List Attempt) {h0 : List Attempt} {L : DiscreteOnline} (inv : OnlineInv V h0 L) :
    OnlineInv V (h0 ++ h) (L.feed h) := by
  induction h generalizing h0 L with
  | nil => simpa [DiscreteOnline.feed] using inv
  | cons a h ih =>
    have := ih (inv.step a)
    rw [List.append_assoc, List.singleton_append] at this
    exact this

theorem onlineInv (V : Finset Lit) (h : List Attempt) : OnlineInv V h ((DiscreteOnline.init V).feed h) := by
  simpa using (OnlineInv.init V).feed h

/-- The largest set without excluded literals is consistent when anything is. -/
theorem OnlineInv.largest {V : Finset Lit} {h : List Attempt} {L : DiscreteOnline} (inv : OnlineInv V h L) {T : Finset Lit}
    (hT : PreConsistent V h T) : PreConsistent V h (V \ L.cannotPre) := by
  rw [inv.space _ Finset.sdiff_subset]
  refine ⟨by ext x; simp, ?_⟩
  have h2 := ((inv.space T hT.1).mp hT)
  intro c hc
  obtain ⟨l, _, hlc⟩ := h2.2 c hc
  exact ⟨l, inv.clauses c hc hlc, hlc⟩

end Model

import Verif.Lemmas.Stats
import Verif.Lemmas.Vocab

/-! Lemmas about the counters of the semantic evaluation of effects. -/
namespace Model
open Spec

/-- A list of increments. -/
def Counts.addAll (k : Counts) (l : List (String × ℕ × ℕ × ℕ)) : Counts :=
  l.foldl (fun k r => k.add r.1 r.2.1 r.2.2.1 r.2.2.2) k

/-- The increments of one action. -/
def incrOf (a : String) (l : List (String × ℕ × ℕ × ℕ)) : List (String × ℕ × ℕ × ℕ) := l.filter fun r => r.1 = a

theorem incrOf_cons_pos {a : String} {r : String × ℕ × ℕ × ℕ} (h : r.1 = a) (l) : incrOf a (r :: l) = r :: incrOf a l := by
  unfold incrOf; rw [List.filter_cons_of_pos (by simpa using h)]
theorem incrOf_cons_neg {a : String} {r : String × ℕ × ℕ × ℕ} (h : r.1 ≠ a) (l) : incrOf a (r :: l) = incrOf a l := by
  unfold incrOf; rw [List.filter_cons_of_neg (by simpa using h)]

theorem Counts.addAll_spec (l : List (String × ℕ × ℕ × ℕ)) (k : Counts) (a : String) :
    ((k.addAll l).tp a = if incrOf a l = [] then k.tp a else some ((k.tp a).getD 0 + ((incrOf a l).map fun r => r.2.1).sum)) ∧
    (k.addAll l).fp a = k.fp a + ((incrOf a l).map fun r => r.2.2.1).sum ∧
    (k.addAll l).fn a = k.fn a + ((incrOf a l).map fun r => r.2.2.2).sum := by
  induction l generalizing k with
  | nil => simp [Counts.addAll, incrOf]
  | cons r l ih =>
    have := ih (k.add r.1 r.2.1 r.2.2.1 r.2.2.2)
    unfold Counts.addAll at this ⊢
    rw [List.foldl_cons, this.1, this.2.1, this.2.2, add_tp, add_fp, add_fn]
    by_cases h : r.1 = a
    · rw [incrOf_cons_pos h, if_pos h.symm, if_pos h.symm, if_pos h.symm, if_neg (List.cons_ne_nil _ _), h]
      simp only [List.map_cons, List.sum_cons]
      refine ⟨?_, by omega, by omega⟩
      split_ifs with h0
      · rw [h0]; simp
      · simp only [Option.getD_some]; congr 1; omega
    · rw [incrOf_cons_neg h, if_neg (Ne.symm h), if_neg (Ne.symm h), if_neg (Ne.symm h)]
      exact ⟨rfl, rfl, rfl⟩

/-- The components of all observations with the objects of their observation. -/
def flatten (obs : List (Sig × List Component)) : List (Sig × Component) := obs.flatMap fun o => o.2.map fun c => (o.1, c)

theorem effObs_flatten (mode : Mode) (Dm Dl : Domain) (obs : List (Sig × List Component)) (k : Counts) :
    obs.foldlM (effObs mode Dm Dl) k = (flatten obs).foldlM (fun k x => effDiffStep mode Dm Dl x.1 k x.2) k := by
  induction obs generalizing k with
  | nil => rfl
  | cons o obs ih =>
    have : flatten (o :: obs) = (o.2.map fun c => (o.1, c)) ++ flatten obs := rfl
    rw [this, List.foldlM_append, List.foldlM_cons]
    have h2 : ∀ (l : List Component) (k : Counts), (l.map fun c => (o.1, c)).foldlM (fun k (x : Sig × Component) => effDiffStep mode Dm Dl x.1 k x.2) k =
        l.foldlM (effDiffStep mode Dm Dl o.1) k := by
      intro l
      induction l with
      | nil => intro k; rfl
      | cons c l ihl =>
        intro k
        rw [List.map_cons, List.foldlM_cons, List.foldlM_cons]
        congr 1; funext k'; exact ihl k'
    rw [h2]
    unfold effObs
    congr 1; funext k'; exact ih k'

/-- The increment of one component, if it is measured. -/
def effIncr (mode : Mode) (Dm Dl : Domain) (x : Sig × Component) : Option (String × ℕ × ℕ × ℕ) :=
  let so := x.1 ++ Dm.consts
  let pre := stateSnapshot Dm x.2.prev so
  if x.2.call.name ∉ Dl.names then none
  else match opApply mode (Dl.act x.2.call.name) x.2.call.params x.2.prev with
    | .error _ => none
    | .ok lnext => match opApply mode (Dm.act x.2.call.name) x.2.call.params lnext with
      | .error _ => none
      | .ok mnext =>
        let me := stateSnapshot Dm mnext so \ pre
        let le := stateSnapshot Dl lnext so \ pre
        if me.card = 0 ∧ le.card = 0 then some (x.2.call.name, 1, 0, 0)
        else some (x.2.call.name, (me ∩ le).card, (le \ me).card, (me \ le).card)

theorem effDiffStep_eq {mode : Mode} {Dm Dl : Domain} {x : Sig × Component} (h : x.2.call.name ∈ Dl.names → x.2.call.name ∈ Dm.names)
    (k : Counts) : effDiffStep mode Dm Dl x.1 k x.2 = .ok (k.addAll (effIncr mode Dm Dl x).toList) := by
  unfold effDiffStep effIncr
  dsimp only
  by_cases hl : x.2.call.name ∈ Dl.names
  · rw [if_neg (not_not.mpr hl), if_neg (not_not.mpr hl), if_neg (not_not.mpr (h hl))]
    cases hL : opApply mode (Dl.act x.2.call.name) x.2.call.params x.2.prev with
    | error e => rfl
    | ok lnext =>
      dsimp only
      cases hM : opApply mode (Dm.act x.2.call.name) x.2.call.params lnext with
      | error e => rfl
      | ok mnext =>
        dsimp only
        split_ifs <;> rfl
  · rw [if_pos hl, if_pos hl]; rfl

theorem Counts.addAll_append (k : Counts) (l l' : List (String × ℕ × ℕ × ℕ)) : (k.addAll l).addAll l' = k.addAll (l ++ l') := by
  unfold Counts.addAll; rw [List.foldl_append]

theorem effFold_eq {mode : Mode} {Dm Dl : Domain} (xs : List (Sig × Component))
    (h : ∀ x ∈ xs, x.2.call.name ∈ Dl.names → x.2.call.name ∈ Dm.names) (k : Counts) :
    xs.foldlM (fun k x => effDiffStep mode Dm Dl x.1 k x.2) k = .ok (k.addAll (xs.filterMap (effIncr mode Dm Dl))) := by
  induction xs generalizing k with
  | nil => rfl
  | cons x xs ih =>
    rw [List.foldlM_cons, effDiffStep_eq (h x List.mem_cons_self)]
    simp only [Bind.bind, Except.bind]
    have := ih (fun y hy => h y (List.mem_cons_of_mem _ hy)) (k.addAll (effIncr mode Dm Dl x).toList)
    rw [this, Counts.addAll_append]
    cases hx : effIncr mode Dm Dl x with
    | none => rw [List.filterMap_cons_none hx]; rfl
    | some r => rw [List.filterMap_cons_some hx]; rfl

theorem effPerf_eq {mode : Mode} {Dm Dl : Domain} {obs : List (Sig × List Component)} (hp : Dm.preds ≠ [])
    (h : ∀ x ∈ flatten obs, x.2.call.name ∈ Dl.names → x.2.call.name ∈ Dm.names) :
    effPerf mode Dm Dl obs = .ok ((Counts.zero.addAll ((flatten obs).filterMap (effIncr mode Dm Dl))).precision,
      (Counts.zero.addAll ((flatten obs).filterMap (effIncr mode Dm Dl))).recall) := by
  unfold effPerf
  rw [if_neg (by simpa using hp), effObs_flatten, effFold_eq _ h]
  rfl

theorem mem_flatten {obs : List (Sig × List Component)} {x : Sig × Component} :
    x ∈ flatten obs ↔ ∃ o ∈ obs, x.1 = o.1 ∧ x.2 ∈ o.2 := by
  unfold flatten
  simp only [List.mem_flatMap, List.mem_map]
  constructor
  · rintro ⟨o, ho, c, hc, rfl⟩; exact ⟨o, ho, rfl, hc⟩
  · rintro ⟨o, ho, e, hc⟩; exact ⟨o, ho, x.2, hc, by rw [← e]⟩

/-! ### Applying two sets of effects one after the other -/

theorem mem_successor {eff : Finset Lit} {ρ : String → String} {s : State} {x : Atom} :
    x ∈ successor eff ρ s ↔ (x ∈ s ∧ ∀ l ∈ eff, l.pos = false → (ground ρ l).atom ≠ x) ∨ ∃ l ∈ eff, l.pos = true ∧ (ground ρ l).atom = x := by
  unfold successor
  simp only [Finset.mem_union, Finset.mem_sdiff, Finset.mem_image, Finset.mem_filter, not_exists, not_and, and_assoc]

/-- No add effect and delete effect of one grounded action coincide. -/
def GroundConsistent (eff : Finset Lit) (ρ : String → String) : Prop :=
  ∀ l ∈ eff, ∀ l' ∈ eff, l.pos = true → l'.pos = false → (ground ρ l).atom ≠ (ground ρ l').atom

instance groundConsistentDec (eff : Finset Lit) (ρ : String → String) : Decidable (GroundConsistent eff ρ) := by
  unfold GroundConsistent; infer_instance

theorem successor_of_superset {effL effM : Finset Lit} {ρ : String → String} (h : effM ⊆ effL) (hc : GroundConsistent effL ρ) (s : State) :
    successor effM ρ (successor effL ρ s) = successor effL ρ s := by
  ext x
  rw [mem_successor]
  constructor
  · rintro (⟨h1, _⟩ | ⟨l, hl, hp, hx⟩)
    · exact h1
    · exact mem_successor.mpr (Or.inr ⟨l, h hl, hp, hx⟩)
  · intro hx
    refine Or.inl ⟨hx, fun l hl hp e => ?_⟩
    rcases mem_successor.mp hx with ⟨_, h2⟩ | ⟨l', hl', hp', hx'⟩
    · exact h2 l (h hl) hp e
    · exact hc l' hl' l (h hl) hp' hp (hx'.trans e.symm)

theorem successor_of_subset {effL effM : Finset Lit} {ρ : String → String} (h : effL ⊆ effM) (s : State) :
    successor effM ρ (successor effL ρ s) = successor effM ρ s := by
  ext x
  rw [mem_successor, mem_successor, mem_successor]
  constructor
  · rintro (⟨⟨h1, h2⟩ | ⟨l, hl, hp, hx⟩, h3⟩ | h)
    · exact Or.inl ⟨h1, h3⟩
    · exact Or.inr ⟨l, h hl, hp, hx⟩
    · exact Or.inr h
  · rintro (⟨h1, h2⟩ | h')
    · exact Or.inl ⟨Or.inl ⟨h1, fun l hl hp => h2 l (h hl) hp⟩, h2⟩
    · exact Or.inr h'

/-- The literals over the given objects that became true. -/
def newLits (D : Domain) (objs : Sig) (s s' : State) : Finset Lit :=
  stateSnapshot D s' (objs ++ D.consts) \ stateSnapshot D s (objs ++ D.consts)

theorem newLits_subset {D : Domain} {objs : Sig} {effL effM : Finset Lit} {ρ : String → String} (h : effL ⊆ effM)
    (hc : GroundConsistent effM ρ) (s : State) :
    newLits D objs s (successor effL ρ s) ⊆ newLits D objs s (successor effM ρ s) := by
  intro g hg
  unfold newLits at hg ⊢
  rw [Finset.mem_sdiff, mem_stateSnapshot, mem_stateSnapshot] at hg ⊢
  obtain ⟨⟨ht, hh⟩, hn⟩ := hg
  refine ⟨⟨ht, ?_⟩, hn⟩
  have hs : ¬ holds s g := fun k => hn ⟨ht, k⟩
  unfold holds at hh hs ⊢
  cases hp : g.pos with
  | true =>
    rw [hp] at hh hs
    have h1 : g.atom ∈ successor effL ρ s := hh.mp rfl
    have h2 : g.atom ∉ s := fun k => hs ⟨fun _ => k, fun _ => rfl⟩
    refine ⟨fun _ => ?_, fun _ => rfl⟩
    rcases mem_successor.mp h1 with ⟨k, _⟩ | ⟨l, hl, k⟩
    · exact absurd k h2
    · exact mem_successor.mpr (Or.inr ⟨l, h hl, k⟩)
  | false =>
    rw [hp] at hh hs
    have h1 : g.atom ∉ successor effL ρ s := fun k => by simpa using hh.mpr k
    have h2 : g.atom ∈ s := by
      by_contra k; exact hs ⟨fun e => by simp at e, fun e => absurd e k⟩
    refine ⟨fun e => by simp at e, fun k => ?_⟩
    have : ∃ l ∈ effL, l.pos = false ∧ (ground ρ l).atom = g.atom := by
      by_contra hne
      push Not at hne
      exact h1 (mem_successor.mpr (Or.inl ⟨h2, hne⟩))
    obtain ⟨l, hl, hlp, hle⟩ := this
    rcases mem_successor.mp k with ⟨_, h3⟩ | ⟨l', hl', hlp', hle'⟩
    · exact absurd hle (h3 l (h hl) hlp)
    · exact absurd (hle'.trans hle.symm) (hc l' hl' l (h hl) hlp' hlp)

end Model

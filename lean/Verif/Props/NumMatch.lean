import Verif.Lemmas.NumMatch
import Verif.Lemmas.Bind
import Verif.Lemmas.Vocab

/-!
C60: the values of the numeric functions are lifted correctly to the parameters of an action.
-/
namespace Props
open Spec Model

section
variable {K : Type} {fns : List PredDecl} {consts sig : Sig} {call : List String} {state : List (Atom × K)}

/-- **C60.** A lifted function over the parameters and constants gets the value `v` exactly when its
grounding by the call has the value `v` in the state. -/
theorem C60_matches_exact (hw : WFSig consts sig) (hlen : call.length = sig.length)
    (hkeys : (state.map Prod.fst).Nodup) (hargs : ∀ p ∈ state, p.1.args.Nodup) {m : List (Atom × K)}
    (h : matchFunctions fns (Sig.names consts) (Sig.names sig) call (numericSnapshot state (call ++ Sig.names consts)) = .ok m)
    (l : Atom) (v : K) :
    m.lookup l = some v ↔ (∃ f ∈ fns, f.name = l.name ∧ f.sig.length = l.args.length) ∧
      (∀ a ∈ l.args, a ∈ Sig.names (sig ++ consts)) ∧
      state.lookup ⟨l.name, l.args.map (subst (Sig.names sig) call)⟩ = some v := by
  have hlen' : call.length = (Sig.names sig).length := by simpa using hlen
  have hc : ∀ c ∈ Sig.names consts, subst (Sig.names sig) call c = c := by
    intro c hc
    apply bind_of_not_mem
    intro hs
    have hw' : (Sig.names (sig ++ consts)).Nodup := hw
    rw [names_append, List.nodup_append] at hw'
    exact hw'.2.2 c hs c hc rfl
  have hp : (Sig.names sig).Nodup := by
    have hw' : (Sig.names (sig ++ consts)).Nodup := hw
    rw [names_append, List.nodup_append] at hw'
    exact hw'.1
  have hmap := map_bind hp hlen'
  have hsn : ∀ p ∈ numericSnapshot state (call ++ Sig.names consts), p.1.args.Nodup :=
    fun p hp => hargs p (List.mem_filter.mp hp).1
  rw [matchFunctions_lookup hmap hc hsn h, lookup_numericSnapshot hkeys]
  have hmem : ∀ a, a ∈ Sig.names (sig ++ consts) ↔ a ∈ Sig.names sig ∨ a ∈ Sig.names consts := by
    intro a; rw [names_append, List.mem_append]
  simp only [hmem]
  constructor
  · rintro ⟨h1, h2, h3⟩
    refine ⟨h1, h2, ?_⟩
    split_ifs at h3
    exact h3
  · rintro ⟨h1, h2, h3⟩
    refine ⟨h1, h2, ?_⟩
    rw [if_pos]
    · exact h3
    · intro o ho
      obtain ⟨a, ha, rfl⟩ := List.mem_map.mp ho
      rcases h2 a ha with h | h
      · exact List.mem_append_left _ (bind_mem_call hp hlen' h)
      · rw [hc a h]; exact List.mem_append_right _ h

/-- **C60.** Matching fails only when a function without parameters has no value. -/
theorem C60_defined (h0 : ∀ f ∈ fns, f.sig = [] → ∃ v, state.lookup ⟨f.name, []⟩ = some v) (consts params call : List String) :
    ∃ m, matchFunctions fns consts params call state = .ok m := by
  obtain ⟨r, hr⟩ := mapM_isOk (f := functionEntries consts params call state) (l := fns) (by
    intro f hf
    unfold functionEntries
    split_ifs with h1 h2
    · exact ⟨_, rfl⟩
    · obtain ⟨v, hv⟩ := h0 f hf (List.length_eq_zero_iff.mp h2)
      rw [hv]
      exact ⟨_, rfl⟩
    · exact ⟨_, rfl⟩)
  exact ⟨Py.dictOf r.flatten, by unfold matchFunctions; rw [hr]; rfl⟩

/-- **C60.** The columns prepared for an action are the well-typed functions over its parameters and
the constants with distinct arguments, each once. -/
theorem C60_vocabulary (l : Atom) :
    (functionVocab fns consts sig).Nodup ∧
    (l ∈ functionVocab fns consts sig ↔ TypedLit fns (sig ++ consts) ⟨l.name, l.args, true⟩) := by
  refine ⟨Py.dictOf_keys_nodup _, ?_⟩
  have : l ∈ functionVocab fns consts sig ↔ l ∈ groundedVocab ⟨fns, consts, [], fun _ => ActModel.fresh []⟩ sig := by
    unfold functionVocab groundedVocab
    rw [Py.mem_keys_dictOf, List.mem_map]
    simp only [List.mem_flatMap, List.mem_filterMap, List.mem_toFinset]
    constructor
    · rintro ⟨p, ⟨f, hf, perm, hperm, he⟩, rfl⟩
      refine ⟨f, hf, perm, hperm, ?_⟩
      split_ifs at he with hv
      simp only [Option.some.injEq] at he
      rw [if_pos hv, ← he]
    · rintro ⟨f, hf, perm, hperm, he⟩
      refine ⟨(l, ()), ⟨f, hf, perm, hperm, ?_⟩, rfl⟩
      split_ifs at he with hv
      simp only [Option.some.injEq] at he
      rw [if_pos hv, ← he]
  rw [this, mem_groundedVocab, typedLit_iff]

end

/-! Concrete cases. -/

def truckT : PType := ⟨"truck", ["object"]⟩
def placeT : PType := ⟨"place", ["object"]⟩
def fuelFns : List PredDecl := [⟨"fuel", [("?t", truckT)]⟩, ⟨"dist", [("?a", placeT), ("?b", placeT)]⟩, ⟨"total", []⟩]
def fuelState : List (Atom × Int) :=
  [(⟨"fuel", ["t1"]⟩, 7), (⟨"fuel", ["t2"]⟩, 9), (⟨"dist", ["p", "q"]⟩, 3), (⟨"dist", ["q", "p"]⟩, 4), (⟨"dist", ["q", "depot"]⟩, 5), (⟨"total", []⟩, 0)]
def driveSig : Sig := [("?t", truckT), ("?from", placeT), ("?to", placeT)]

/-- Meets the hypotheses of C60. -/
example : WFSig [("depot", placeT)] driveSig ∧ ["t1", "p", "q"].length = driveSig.length ∧ (fuelState.map Prod.fst).Nodup ∧
    (∀ p ∈ fuelState, p.1.args.Nodup) ∧
    matchFunctions fuelFns ["depot"] (Sig.names driveSig) ["t1", "p", "q"] (numericSnapshot fuelState (["t1", "p", "q"] ++ ["depot"])) =
      .ok [(⟨"fuel", ["?t"]⟩, 7), (⟨"dist", ["?from", "?to"]⟩, 3), (⟨"dist", ["?to", "?from"]⟩, 4), (⟨"dist", ["?to", "depot"]⟩, 5), (⟨"total", []⟩, 0)] := by
  decide +kernel

/-- Limit of C60: a function without parameters and without a value is a `KeyError`. -/
theorem C60_limit_missing_nullary :
    matchFunctions fuelFns [] (Sig.names driveSig) ["t1", "p", "q"] [((⟨"fuel", ["t1"]⟩ : Atom), (7 : Int))] = .error .keyError := by
  decide +kernel

end Props
